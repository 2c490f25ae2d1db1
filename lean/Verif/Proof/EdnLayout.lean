import Verif.Spec.EdnLayout
import Verif.Proof.EdnSim
import Verif.Proof.EdnGrammar
import Verif.Proof.EdnLexer3
/-! The parser's results depend on the tokens' kinds and texts only; blank text between tokens changes neither. -/
namespace Ab.Edn.Layout

open Spec Re

/-! ### The parser -/

theorem All2.append {α β : Type} {R : α → β → Prop} {as bs cs ds} (h : All2 R as bs) (h' : All2 R cs ds) :
    All2 R (as ++ cs) (bs ++ ds) := by
  induction h with
  | nil => exact h'
  | cons h _ ih => exact .cons h ih

theorem All2.imp {α β : Type} {R Q : α → β → Prop} {as bs} (h : All2 R as bs) (hq : ∀ a b, R a b → Q a b) :
    All2 Q as bs := by
  induction h with
  | nil => exact .nil
  | cons h _ ih => exact .cons (hq _ _ h) ih

abbrev Place := Nat → Nat → Nat → Nat → Prop

def RT (P : Place) (t t' : Token) : Prop := t.kind = t'.kind ∧ t.text = t'.text ∧ P t.lo t.hi t'.lo t'.hi
def RE (P : Place) (e e' : Err) : Prop := e.msg = e'.msg ∧ P e.lo e.hi e'.lo e'.hi

structure Sim (P : Place) (s s' : PS) : Prop where
  toks : All2 (RT P) s.toks s'.toks
  eof : P s.eof s.eof s'.eof s'.eof
  tab : s'.tab = s.tab
  log : All2 (RE P) s.log s'.log

def SimO (P : Place) {α : Type} (a b : Outcome (PS × α)) : Prop :=
  (∃ s s' x, a = .ok (s, x) ∧ b = .ok (s', x) ∧ Sim P s s') ∨ (∃ w, a = .trap w ∧ b = .trap w) ∨
  (∃ w, a = .ub w ∧ b = .ub w) ∨ (∃ w, a = .throw w ∧ b = .throw w) ∨ (a = .fuel ∧ b = .fuel)

variable {P : Place}

theorem SimO.ok {α : Type} {s s' : PS} {x : α} (h : Sim P s s') : SimO P (.ok (s, x)) (.ok (s', x)) :=
  Or.inl ⟨s, s', x, rfl, rfl, h⟩

theorem SimO.bind {α β : Type} {a b : Outcome (PS × α)} {f g : PS × α → Outcome (PS × β)} (h : SimO P a b)
    (hf : ∀ s s' x, Sim P s s' → SimO P (f (s, x)) (g (s', x))) : SimO P (a >>= f) (b >>= g) := by
  rcases h with ⟨s, s', x, rfl, rfl, hs⟩ | ⟨w, rfl, rfl⟩ | ⟨w, rfl, rfl⟩ | ⟨w, rfl, rfl⟩ | ⟨rfl, rfl⟩
  · exact hf s s' x hs
  · exact Or.inr (Or.inl ⟨w, rfl, rfl⟩)
  · exact Or.inr (Or.inr (Or.inl ⟨w, rfl, rfl⟩))
  · exact Or.inr (Or.inr (Or.inr (Or.inl ⟨w, rfl, rfl⟩)))
  · exact Or.inr (Or.inr (Or.inr (Or.inr ⟨rfl, rfl⟩)))

theorem SimO.bindHash {β : Type} {o : Outcome U64} {f g : U64 → Outcome (PS × β)}
    (hf : ∀ x, SimO P (f x) (g x)) : SimO P (o >>= f) (o >>= g) := by
  cases o with
  | ok x => exact hf x
  | trap w => exact Or.inr (Or.inl ⟨w, rfl, rfl⟩)
  | ub w => exact Or.inr (Or.inr (Or.inl ⟨w, rfl, rfl⟩))
  | throw w => exact Or.inr (Or.inr (Or.inr (Or.inl ⟨w, rfl, rfl⟩)))
  | fuel => exact Or.inr (Or.inr (Or.inr (Or.inr ⟨rfl, rfl⟩)))

theorem SimO.fuel {α : Type} : SimO P (α := α) .fuel .fuel := Or.inr (Or.inr (Or.inr (Or.inr ⟨rfl, rfl⟩)))

theorem Sim.kind {s s' : PS} (h : Sim P s s') : s'.kind = s.kind := by
  unfold PS.kind
  have := h.toks
  generalize s.toks = a at this ⊢
  generalize s'.toks = b at this ⊢
  cases this with
  | nil => rfl
  | cons h _ => simp [h.1]

theorem Sim.adv {s s' : PS} (h : Sim P s s') : Sim P s.adv s'.adv := by
  refine ⟨?_, h.eof, h.tab, h.log⟩
  unfold PS.adv
  have := h.toks
  dsimp only
  generalize s.toks = a at this ⊢
  generalize s'.toks = b at this ⊢
  cases this with
  | nil => exact .nil
  | cons _ h => exact h

theorem Sim.err {s s' : PS} (h : Sim P s s') (m : String) : Sim P (s.err m) (s'.err m) := by
  obtain ⟨ta, e, tb, lg⟩ := s
  obtain ⟨ta', e', tb', lg'⟩ := s'
  obtain ⟨h1, h2, h3, h4⟩ := h
  dsimp only at h1 h2 h3 h4
  unfold PS.err
  cases h1 with
  | nil => exact ⟨.nil, h2, h3, All2.append h4 (.cons ⟨rfl, h2⟩ .nil)⟩
  | cons h hs => exact ⟨.cons h hs, h2, h3, All2.append h4 (.cons ⟨rfl, h.2.2⟩ .nil)⟩

theorem Sim.sym {s s' : PS} (h : Sim P s s') (t : List Byte) :
    Sim P (parseSym s t).1 (parseSym s' t).1 ∧ (parseSym s' t).2 = (parseSym s t).2 := by
  unfold parseSym
  rw [h.tab]
  exact ⟨⟨h.adv.toks, h.eof, rfl, h.log⟩, rfl⟩

theorem Sim.push {s s' : PS} (h : Sim P s s') {t t' : Token} (ht : RT P t t') (m : String) :
    Sim P { s.adv with log := s.log ++ [⟨t.lo, t.hi, m⟩] } { s'.adv with log := s'.log ++ [⟨t'.lo, t'.hi, m⟩] } :=
  ⟨h.adv.toks, h.eof, h.tab, All2.append h.log (.cons ⟨rfl, ht.2.2⟩ .nil)⟩

theorem sim_all (L : Lib) : ∀ (fuel : Nat),
    (∀ s s', Sim P s s' → SimO P (parseNode L fuel s) (parseNode L fuel s')) ∧
    (∀ b s s' acc, Sim P s s' → SimO P (parseSeq L fuel b s acc) (parseSeq L fuel b s' acc)) ∧
    (∀ s s' es, Sim P s s' → SimO P (parseMap L fuel s es) (parseMap L fuel s' es)) := by
  intro fuel
  induction fuel with
  | zero =>
    refine ⟨fun s s' h => ?_, fun b s s' acc h => ?_, fun s s' es h => ?_⟩
    · simp only [parseNode]; exact .fuel
    · simp only [parseSeq]; exact .fuel
    · simp only [parseMap]; exact .fuel
  | succ fuel ih =>
    obtain ⟨ihN, ihS, ihM⟩ := ih
    refine ⟨fun s s' h => ?_, fun b s s' acc h => ?_, fun s s' es h => ?_⟩
    · simp only [parseNode]
      have htoks := h.toks
      generalize s.toks = a at htoks ⊢
      generalize s'.toks = b at htoks ⊢
      cases htoks with
      | nil => exact .ok h
      | @cons t t' ts ts' hr _ =>
        simp only
        rw [← hr.1, ← hr.2.1]
        cases t.kind with
        | lparen => exact .bind (ihS _ _ _ _ h.adv) (fun _ _ _ h => .ok h)
        | lbracket => exact .bind (ihS _ _ _ _ h.adv) (fun _ _ _ h => .ok h)
        | lbrace => exact .bind (ihM _ _ _ h.adv) (fun _ _ _ h => .ok h)
        | symbol => simp only [(h.sym t.text).2]; exact .ok (h.sym t.text).1
        | keyword => simp only [(h.sym t.text).2]; exact .ok (h.sym t.text).1
        | rparen => exact .ok (h.push hr _)
        | rbrace => exact .ok (h.push hr _)
        | rbracket => exact .ok (h.push hr _)
        | _ => exact .ok h.adv
    · simp only [parseSeq, h.kind]
      cases s.kind with
      | none => exact .ok (h.err _)
      | some k =>
        cases k with
        | rparen => cases b <;> exact .ok (by first | exact h.adv | exact (h.err _).adv)
        | rbracket => cases b <;> exact .ok (by first | exact h.adv | exact (h.err _).adv)
        | rbrace => exact Or.inr (Or.inr (Or.inr (Or.inl ⟨_, rfl, rfl⟩)))
        | _ => exact .bind (ihN _ _ h) (fun s s' x h => by cases x <;> exact ihS _ _ _ _ h)
    · simp only [parseMap, h.kind]
      cases s.kind with
      | none => exact ihM _ _ _ ((h.err _).err _)
      | some k =>
        cases k with
        | rbrace => exact .ok h.adv
        | rparen => exact .ok (h.err _).adv
        | rbracket => exact .ok (h.err _).adv
        | _ =>
          refine .bind (ihN _ _ h) (fun s s' x h => ?_)
          cases x with
          | none => exact ihM _ _ _ (h.err _)
          | some k =>
            simp only [h.kind]
            cases s.kind with
            | none => exact ihM _ _ _ ((h.err _).err _)
            | some kk =>
              cases kk with
              | rbrace => exact Or.inr (Or.inr (Or.inr (Or.inl ⟨_, rfl, rfl⟩)))
              | rparen => exact Or.inr (Or.inr (Or.inr (Or.inl ⟨_, rfl, rfl⟩)))
              | _ =>
                refine .bind (ihN _ _ h) (fun s s' x h => ?_)
                cases x with
                | none => exact ihM _ _ _ (h.err _)
                | some v =>
                  refine .bindHash (fun _ => ?_)
                  simp only
                  cases findKey L es k with
                  | none => exact ihM _ _ _ h
                  | some e => exact ihM _ _ _ (h.err _)

theorem sim_top (L : Lib) : ∀ (fuel : Nat) (s s' : PS) (acc : List Node), Sim P s s' →
    SimO P (parseTop L fuel s acc) (parseTop L fuel s' acc) := by
  intro fuel
  induction fuel with
  | zero => intro s s' acc h; exact .fuel
  | succ fuel ih =>
    intro s s' acc h
    simp only [parseTop]
    have htoks := h.toks
    generalize s.toks = a at htoks ⊢
    generalize s'.toks = b at htoks ⊢
    cases htoks with
    | nil => exact .ok h
    | cons _ _ => exact .bind ((sim_all L fuel).1 _ _ h) (fun s s' x h => by cases x <;> exact ih _ _ _ h)

/-- Related tokens and ends: the texts are read alike. -/
theorem parse_alike {L : Lib} {s s' : List Byte} {ts ts' : List Token} {l l' : Lex}
    (h : lex L s = .ok (ts, l)) (h' : lex L s' = .ok (ts', l')) (ht : All2 (RT P) ts ts')
    (he : P l.pos l.pos l'.pos l'.pos) (fuel : Nat) (tab : SymTab) :
    ReadAlike P (parse L fuel tab s) (parse L fuel tab s') := by
  unfold parse
  rw [h, h']
  simp only [Outcome.ok_bind]
  rcases sim_top (P := P) L fuel ⟨ts, l.pos, tab, []⟩ ⟨ts', l'.pos, tab, []⟩ [] ⟨ht, he, rfl, .nil⟩ with
    ⟨a, b, x, e, e', hs⟩ | ⟨w, e, e'⟩ | ⟨w, e, e'⟩ | ⟨w, e, e'⟩ | ⟨e, e'⟩
  · rw [e, e']
    exact ⟨rfl, hs.tab.symm, hs.log⟩
  · rw [e, e']; exact rfl
  · rw [e, e']; exact rfl
  · rw [e, e']; exact rfl
  · rw [e, e']; exact trivial

/-! ### Tokens and their places -/

/-- The significant pieces with their places. -/
def placed : Nat → List (Rule × List Byte) → List (Nat × Rule × List Byte)
  | _, [] => []
  | p, (r, t) :: ls => if IsSkip r then placed (p + t.length) ls else (p, r, t) :: placed (p + t.length) ls

/-- The line breaks recorded: those in whitespace and comments. -/
def brk : Nat → List (Rule × List Byte) → List Nat
  | _, [] => []
  | p, (r, t) :: ls => (if IsSkip r then newlines p t else []) ++ brk (p + t.length) ls

theorem steps_brk : ∀ (ls : List (Rule × List Byte)) (l : Lex), (steps l ls).breaks = l.breaks ++ brk l.pos ls
  | [], l => by simp [steps, brk]
  | (r, t) :: ls, l => by
    rw [steps, steps_brk ls, brk, ← List.append_assoc]
    show (if IsSkip r then l.breaks ++ newlines l.pos t else l.breaks) ++ _ = _
    split
    · rfl
    · rw [List.append_nil]; rfl

theorem newlines_add : ∀ (t : List Byte) (p n : Nat), newlines (p + n) t = (newlines p t).map (· + n)
  | [], _, _ => rfl
  | b :: t, p, n => by
    have e : p + n + 1 = p + 1 + n := by omega
    rw [newlines, newlines, e, newlines_add t (p + 1) n]
    split <;> simp

theorem brk_add : ∀ (ls : List (Rule × List Byte)) (p n : Nat), brk (p + n) ls = (brk p ls).map (· + n)
  | [], _, _ => rfl
  | (r, t) :: ls, p, n => by
    have e : p + n + t.length = p + t.length + n := by omega
    rw [brk, brk, e, brk_add ls, newlines_add, List.map_append]
    split <;> rfl

theorem brk_skip {p : Nat} {r : Rule} {t : List Byte} {ls} (h : IsSkip r) :
    brk p ((r, t) :: ls) = newlines p t ++ brk (p + t.length) ls := by rw [brk, if_pos h]

def toksP (L : Lib) : List (Nat × Rule × List Byte) → Outcome (List Token)
  | [] => .ok []
  | (p, r, t) :: xs => do
    let k ← tokenOf L r t
    let ts ← toksP L xs
    match k with
    | some k => pure (⟨k, t, p, p + t.length⟩ :: ts)
    | none => pure ts

theorem toks_placed (L : Lib) : ∀ (ls : List (Rule × List Byte)) (p : Nat), toks L p ls = toksP L (placed p ls)
  | [], _ => rfl
  | (r, t) :: ls, p => by
    unfold toks placed
    by_cases h : IsSkip r
    · rw [if_pos h, tokenOf_skip h, toks_placed L ls]
      simp only [Outcome.ok_bind]
      cases toksP L (placed (p + t.length) ls) <;> rfl
    · rw [if_neg h, toks_placed L ls]
      rfl

def RP (P : Place) (x y : Nat × Rule × List Byte) : Prop :=
  x.2 = y.2 ∧ P x.1 (x.1 + x.2.2.length) y.1 (y.1 + y.2.2.length)

theorem toksP_alike {L : Lib} {xs ys : List (Nat × Rule × List Byte)} (h : All2 (RP P) xs ys) :
    (∃ ts ts', toksP L xs = .ok ts ∧ toksP L ys = .ok ts' ∧ All2 (RT P) ts ts') ∨
    (∃ w, toksP L xs = .trap w ∧ toksP L ys = .trap w) ∨ (∃ w, toksP L xs = .ub w ∧ toksP L ys = .ub w) ∨
    (∃ w, toksP L xs = .throw w ∧ toksP L ys = .throw w) ∨ (toksP L xs = .fuel ∧ toksP L ys = .fuel) := by
  induction h with
  | nil => exact Or.inl ⟨[], [], rfl, rfl, .nil⟩
  | @cons x y xs ys hxy _ ih =>
    obtain ⟨p, r, t⟩ := x
    obtain ⟨p', r', t'⟩ := y
    obtain ⟨h1, h2⟩ := hxy
    dsimp only at h1 h2
    injection h1 with h1 h3
    subst h1; subst h3
    simp only [toksP]
    cases tokenOf L r t with
    | trap w => exact Or.inr (Or.inl ⟨w, rfl, rfl⟩)
    | ub w => exact Or.inr (Or.inr (Or.inl ⟨w, rfl, rfl⟩))
    | throw w => exact Or.inr (Or.inr (Or.inr (Or.inl ⟨w, rfl, rfl⟩)))
    | fuel => exact Or.inr (Or.inr (Or.inr (Or.inr ⟨rfl, rfl⟩)))
    | ok k =>
      rcases ih with ⟨ts, ts', e, e', ht⟩ | ⟨w, e, e'⟩ | ⟨w, e, e'⟩ | ⟨w, e, e'⟩ | ⟨e, e'⟩
      · rw [e, e']
        cases k with
        | none => exact Or.inl ⟨ts, ts', rfl, rfl, ht⟩
        | some k => exact Or.inl ⟨_, _, rfl, rfl, .cons ⟨rfl, rfl, h2⟩ ht⟩
      · rw [e, e']; exact Or.inr (Or.inl ⟨w, rfl, rfl⟩)
      · rw [e, e']; exact Or.inr (Or.inr (Or.inl ⟨w, rfl, rfl⟩))
      · rw [e, e']; exact Or.inr (Or.inr (Or.inr (Or.inl ⟨w, rfl, rfl⟩)))
      · rw [e, e']; exact Or.inr (Or.inr (Or.inr (Or.inr ⟨rfl, rfl⟩)))

/-- How far the scanner reads into what is left over. -/
def tailRead (rest : List Byte) : Nat := if rest = [] then 0 else (scan rules rest).read

def texts (ls : List (Rule × List Byte)) : List Byte := (ls.map (·.2)).flatten

theorem end_pos {s : List Byte} {ls rest} (h : Lexemes s ls rest) : ∀ (l : Lex), l.rest = s → l.err = false →
    (endOf (steps l ls)).pos = l.pos + (texts ls).length + tailRead rest := by
  induction h with
  | @done s hn =>
    intro l hl he
    unfold steps endOf tailRead texts
    rw [hl, he]
    by_cases h0 : s = []
    · rw [if_pos (Or.inl h0), if_pos h0]; simp
    · rw [if_neg (by simp [h0]), if_neg h0]; simp
  | @step s r n ls rest hl _ ih =>
    intro l hls he
    have hlen : (s.take n).length = n := by rw [List.length_take]; exact Nat.min_eq_left hl.le
    rw [steps, ih (step1 l r (s.take n)) (by simp only [step1, hlen, hls]) he]
    simp only [step1, texts, List.map_cons, List.flatten_cons, List.length_append]
    omega

/-- Related places of the pieces and of the ends: the texts are read alike. -/
theorem chunks_alike {L : Lib} {s s' : List Byte} {ls ls' rest rest'} (h : Chunks s ls rest)
    (h' : Chunks s' ls' rest') (hp : All2 (RP P) (placed 0 ls) (placed 0 ls'))
    (he : P ((texts ls).length + tailRead rest) ((texts ls).length + tailRead rest)
      ((texts ls').length + tailRead rest') ((texts ls').length + tailRead rest')) (fuel : Nat) (tab : SymTab) :
    ReadAlike P (parse L fuel tab s) (parse L fuel tab s') := by
  have h := lexemes_iff.mpr h
  have h' := lexemes_iff.mpr h'
  have e1 := end_pos h (Lex.start s) rfl rfl
  have e2 := end_pos h' (Lex.start s') rfl rfl
  have l1 := lex_spec L h
  have l2 := lex_spec L h'
  rw [toks_placed] at l1 l2
  rcases toksP_alike (L := L) hp with ⟨ts, ts', e, e', ht⟩ | ⟨w, e, e'⟩ | ⟨w, e, e'⟩ | ⟨w, e, e'⟩ | ⟨e, e'⟩
  · rw [e] at l1; rw [e'] at l2
    refine parse_alike l1 l2 ht ?_ fuel tab
    rw [e1, e2]
    simpa [Lex.start] using he
  all_goals
    unfold parse
    rw [l1, l2, e, e']
    first | exact rfl | exact trivial

/-! ### Bytes of tokens -/

/-- Whitespace characters and the semicolon. -/
def starts (b : Byte) : Bool := isWs b || b == 59#8

def plain (q : Rule) : Bool := !(q == .string || q == .whitespace || q == .comment)

theorem rule_of (q : Rule) : ∃ re, (q, re) ∈ rules := by cases q <;> simp [rules]

theorem plain_uses {q : Rule × Re} (hq : q ∈ rules) (hp : plain q.1 = true) :
    ∀ b, (starts b || b == 34#8) = true → uses q.2 b = false := by
  simp only [rules, List.mem_cons, List.not_mem_nil, or_false] at hq
  rcases hq with h | h | h | h | h | h | h | h | h | h | h | h | h | h | h | h <;> subst h
  all_goals first | (exact absurd hp (by decide)) | (clear hp; decide +kernel)

theorem plain_bytes {q : Rule} {t : List Byte} (hp : plain q = true) (ht : TokenText q t) {b : Byte} (hb : b ∈ t) :
    starts b = false ∧ b ≠ 34#8 := by
  obtain ⟨re, hre⟩ := rule_of q
  have hu := lang_uses ((rule_iff (q, re) hre t).mpr ht) b hb
  have hn := plain_uses hre hp b
  dsimp only at hn
  by_cases h : (starts b || b == 34#8) = true
  · rw [hn h] at hu; cases hu
  · simp only [Bool.or_eq_true, beq_iff_eq, not_or, Bool.not_eq_true] at h
    exact h

theorem string_head {t : List Byte} (h : TokenText .string t) : ∃ u, t = 34#8 :: u := by
  obtain ⟨ps, rfl, -⟩ := h
  exact ⟨_, rfl⟩

theorem comment_head {t : List Byte} (h : TokenText .comment t) : ∃ u, t = 59#8 :: u := by
  obtain ⟨u, rfl, -⟩ := h
  exact ⟨_, rfl⟩

/-! ### Strings -/

/-- Every quote follows a backslash. -/
def okBody : Byte → List Byte → Bool
  | _, [] => true
  | p, b :: bs => (!(b == 34#8 || b == 39#8) || p == 92#8) && okBody b bs

def lastOr (p : Byte) : List Byte → Byte
  | [] => p
  | b :: bs => lastOr b bs

theorem okBody_append : ∀ (a : List Byte) (p : Byte) (b : List Byte),
    okBody p (a ++ b) = (okBody p a && okBody (lastOr p a) b)
  | [], p, b => by simp [okBody, lastOr]
  | x :: a, p, b => by simp only [List.cons_append, okBody, okBody_append a x b, lastOr, Bool.and_assoc]

theorem lastOr_append : ∀ (a : List Byte) (p : Byte) (b : List Byte), lastOr p (a ++ b) = lastOr (lastOr p a) b
  | [], _, _ => rfl
  | x :: a, p, b => by simp only [List.cons_append, lastOr, lastOr_append a x b]

theorem okBody_weaken : ∀ (b : List Byte) {p q : Byte}, okBody p b = true → (p = 92#8 → q = 92#8) → okBody q b = true
  | [], _, _, _, _ => rfl
  | x :: b, p, q, h, hq => by
    simp only [okBody, Bool.and_eq_true, Bool.or_eq_true, beq_iff_eq] at h ⊢
    exact ⟨h.1.imp id hq, h.2⟩

theorem quote_iff (b : Byte) : oneOf "\"'" b ↔ (b = 34#8 ∨ b = 39#8) := by
  revert b; decide +kernel

theorem pieces_ok : ∀ (ps : List (List Byte)) (p : Byte), (∀ x ∈ ps, StringPiece x) → okBody p ps.flatten = true
  | [], _, _ => rfl
  | x :: ps, p, h => by
    have ih := fun q => pieces_ok ps q (fun y hy => h y (by simp [hy]))
    rw [List.flatten_cons]
    rcases h x (by simp) with ⟨b, rfl, hb⟩ | ⟨b, rfl, hb⟩
    · rw [quote_iff] at hb
      simp only [not_or] at hb
      simp [okBody, ih, hb.1, hb.2]
    · show okBody p (92#8 :: b :: ps.flatten) = true
      simp [okBody, ih]

theorem ok_pieces : ∀ (n : Nat) (X : List Byte) (p : Byte), X.length ≤ n → okBody p X = true → p ≠ 92#8 →
    ∃ ps : List (List Byte), X = ps.flatten ∧ ∀ x ∈ ps, StringPiece x
  | _, [], _, _, _, _ => ⟨[], rfl, by simp⟩
  | 0, _ :: _, _, h, _, _ => by simp at h
  | n + 1, b :: bs, p, hn, h, hp => by
    simp only [List.length_cons] at hn
    simp only [okBody, Bool.and_eq_true, Bool.or_eq_true, beq_iff_eq, hp, or_false, Bool.not_eq_true',
      Bool.or_eq_false_iff, beq_eq_false_iff_ne] at h
    obtain ⟨⟨hb1, hb2⟩, hbs⟩ := h
    have single : StringPiece [b] := Or.inl ⟨b, rfl, by rw [quote_iff]; simp [hb1, hb2]⟩
    by_cases hb : b = 92#8
    · subst hb
      cases bs with
      | nil => exact ⟨[[92#8]], rfl, by simpa using single⟩
      | cons d ds =>
        by_cases hd : d = 34#8 ∨ d = 39#8
        · have hds : okBody d ds = true := by
            simp only [okBody, Bool.and_eq_true] at hbs; exact hbs.2
          have hd92 : d ≠ 92#8 := by rcases hd with h | h <;> subst h <;> decide
          obtain ⟨ps, e, hps⟩ := ok_pieces n ds d (by simp at hn; omega) hds hd92
          refine ⟨[92#8, d] :: ps, by rw [e]; rfl, ?_⟩
          intro x hx
          rcases List.mem_cons.mp hx with rfl | hx
          · refine Or.inr ⟨d, rfl, ?_⟩
            rcases hd with h | h <;> subst h <;> decide
          · exact hps x hx
        · have hds : okBody 0#8 (d :: ds) = true := by
            simp only [not_or] at hd
            simp only [okBody, Bool.and_eq_true] at hbs ⊢
            exact ⟨by simp [hd.1, hd.2], hbs.2⟩
          obtain ⟨ps, e, hps⟩ := ok_pieces n (d :: ds) 0#8 (by omega) hds (by decide)
          refine ⟨[92#8] :: ps, by rw [e]; rfl, ?_⟩
          intro x hx
          rcases List.mem_cons.mp hx with rfl | hx
          · exact single
          · exact hps x hx
    · obtain ⟨ps, e, hps⟩ := ok_pieces n bs b (by omega) hbs hb
      refine ⟨[b] :: ps, by rw [e]; rfl, ?_⟩
      intro x hx
      rcases List.mem_cons.mp hx with rfl | hx
      · exact single
      · exact hps x hx

theorem string_ok {t : List Byte} : TokenText .string t ↔ ∃ X, t = 34#8 :: (X ++ [34#8]) ∧ okBody 34#8 X = true := by
  constructor
  · rintro ⟨ps, rfl, h⟩
    exact ⟨ps.flatten, rfl, pieces_ok ps _ h⟩
  · rintro ⟨X, rfl, h⟩
    obtain ⟨ps, rfl, hps⟩ := ok_pieces X.length X 34#8 (Nat.le_refl _) h (by decide)
    exact ⟨ps, rfl, hps⟩

/-- Text without a double quote, not ending in a backslash, can be taken out of the inside of a string. -/
theorem string_remove {a w v : List Byte} (ha : ∃ y, a = 34#8 :: y) (hv : v ≠ []) (hw : lastOr 34#8 w ≠ 92#8)
    (hw' : w ≠ []) (h : TokenText .string (a ++ (w ++ v))) : TokenText .string (a ++ v) := by
  obtain ⟨y, rfl⟩ := ha
  rw [string_ok] at h ⊢
  obtain ⟨X, e, hX⟩ := h
  obtain ⟨v', b, rfl⟩ : ∃ v' b, v = v' ++ [b] := ⟨v.dropLast, v.getLast hv, (List.dropLast_concat_getLast hv).symm⟩
  have e' : (y ++ (w ++ v')) ++ [b] = X ++ [34#8] := by
    simp only [List.cons_append, List.cons.injEq, true_and] at e
    rw [← e]; simp
  obtain ⟨e1, e2⟩ := List.append_inj' e' rfl
  injection e2 with e2
  subst e2; subst e1
  refine ⟨y ++ v', by simp, ?_⟩
  rw [okBody_append, okBody_append] at hX
  rw [okBody_append]
  simp only [Bool.and_eq_true] at hX ⊢
  refine ⟨hX.1, okBody_weaken v' hX.2.2 ?_⟩
  have : lastOr (lastOr 34#8 y) w = lastOr 34#8 w := by
    cases w with
    | nil => exact absurd rfl hw'
    | cons x w => rfl
  rw [this]
  intro h; exact absurd h hw

/-! ### Blank text keeps the pieces -/

theorem take_app {c v : List Byte} : (c ++ v).take c.length = c := by simp

/-- What may be put in: it begins like whitespace or a comment, has no double quote, and does not end in a
backslash unless it comes last. -/
structure Fits (w v : List Byte) : Prop where
  head : ∃ b u, w = b :: u ∧ starts b = true
  quote : 34#8 ∉ w
  last : v = [] ∨ lastOr 34#8 w ≠ 92#8

theorem munch_insert {c x v w : List Byte} {r : Rule} (h : Munch (c ++ (x ++ v)) r c.length) (hr : ¬ IsSkip r)
    (hw : Fits w v) : Munch (c ++ (x ++ (w ++ v))) r c.length := by
  have ht := h.token
  rw [take_app] at ht
  have hc : c ≠ [] := fun h0 => by have := h.pos; rw [h0] at this; simp at this
  refine ⟨h.pos, by simp, by rw [take_app]; exact ht, ?_, ?_⟩
  · obtain ⟨i, h1, h2⟩ := h.preferred
    rw [take_app] at h2
    exact ⟨i, h1, by rw [take_app]; exact h2⟩
  · intro m q hm1 hm2 hq
    by_cases hm : m ≤ (c ++ x).length
    · refine h.longest m q hm1 (by simp at hm ⊢; omega) ?_
      rw [← List.append_assoc, List.take_append_of_le_length hm] at hq ⊢
      exact hq
    · obtain ⟨b, u, hbw, hb⟩ := hw.head
      have hsplit : (c ++ (x ++ (w ++ v))).take m = (c ++ x) ++ (w ++ v).take (m - (c ++ x).length) := by
        rw [← List.append_assoc, List.take_append, List.take_of_length_le (by omega)]
      rw [hsplit] at hq
      obtain ⟨k, hk⟩ : ∃ k, m - (c ++ x).length = k + 1 := ⟨m - (c ++ x).length - 1, by omega⟩
      rw [hk] at hq
      have hbm : b ∈ (c ++ x) ++ (w ++ v).take (k + 1) := by
        rw [hbw]; simp
      obtain ⟨d, c', rfl⟩ : ∃ d c', c = d :: c' := by
        cases c with
        | nil => exact absurd rfl hc
        | cons d c' => exact ⟨d, c', rfl⟩
      have hd : r ≠ .string → starts d = false ∧ d ≠ 34#8 := by
        intro hs
        refine plain_bytes (q := r) ?_ ht (by simp)
        cases r <;> first | rfl | exact absurd rfl hs | exact absurd (Or.inl rfl) hr | exact absurd (Or.inr rfl) hr
      have hd2 : r = .string → d = 34#8 := by
        intro hs; subst hs
        obtain ⟨y, e⟩ := string_head ht
        injection e
      have hd3 : starts d = false := by
        by_cases hs : r = .string
        · rw [hd2 hs]; rfl
        · exact (hd hs).1
      by_cases hp : plain q = true
      · have := (plain_bytes hp hq hbm).1
        rw [hb] at this; cases this
      · have hq3 : q = .string ∨ q = .whitespace ∨ q = .comment := by
          cases q <;> first | exact absurd rfl hp | simp
        rcases hq3 with rfl | rfl | rfl
        · -- a longer string
          obtain ⟨y, e⟩ := string_head hq
          have hd34 : d = 34#8 := by injection e
          subst hd34
          have hrs : r = .string := by
            by_cases hs : r = .string
            · exact hs
            · exact absurd rfl (hd hs).2
          by_cases hkw : k + 1 ≤ w.length
          · rw [List.take_append_of_le_length hkw] at hq
            rw [string_ok] at hq
            obtain ⟨X, e, -⟩ := hq
            have hlast : (34#8 : Byte) ∈ w.take (k + 1) := by
              have hne : w.take (k + 1) ≠ [] := by rw [hbw]; simp
              obtain ⟨z, y', hz⟩ : ∃ z y', w.take (k + 1) = z ++ [y'] :=
                ⟨_, _, (List.dropLast_concat_getLast hne).symm⟩
              rw [hz] at e ⊢
              have e2 : (34#8 :: c' ++ x ++ z) ++ [y'] = (34#8 :: X) ++ [34#8] := by simpa using e
              have := (List.append_inj' e2 rfl).2
              injection this with this
              rw [this]; simp
            exact hw.quote (List.mem_of_mem_take hlast)
          · rw [List.take_append, List.take_of_length_le (by omega)] at hq
            have hvne : v.take (k + 1 - w.length) ≠ [] := by
              intro h0
              have h0' := congrArg List.length h0
              simp only [List.length_take, List.length_nil] at h0'
              simp only [List.length_append, List.length_cons] at hm2 hm hk
              omega
            have hvl : lastOr 34#8 w ≠ 92#8 := by
              rcases hw.last with h0 | h0
              · rw [h0] at hvne; simp at hvne
              · exact h0
            have hrem := string_remove ⟨c' ++ x, rfl⟩ hvne hvl (by rw [hbw]; simp) hq
            refine h.longest ((34#8 :: c' ++ x).length + (k + 1 - w.length)) .string ?_ ?_ ?_
            · simp only [List.length_append, List.length_cons]; omega
            · simp only [List.length_append, List.length_cons] at hm2 hm hk ⊢; omega
            · rw [← List.append_assoc, List.take_append, List.take_of_length_le (by omega)]
              rw [show (34#8 :: c' ++ x).length + (k + 1 - w.length) - (34#8 :: c' ++ x).length = k + 1 - w.length by omega]
              exact hrem
        · have := hq.2 d (by simp)
          rw [← ws_iff] at this
          simp [starts, this] at hd3
        · obtain ⟨y, e⟩ := comment_head hq
          have : d = 59#8 := by injection e
          subst this; revert hd3; decide

/-- A comment before a text. -/
theorem munch_comment {t s : List Byte} (ht : TokenText .comment t) : Munch (t ++ s) .comment t.length := by
  obtain ⟨u, e, hu⟩ := ht
  have ht : TokenText .comment t := ⟨u, e, hu⟩
  have hhead : t = 59#8 :: (u ++ [10#8]) := by rw [e]; rfl
  have nostart : ∀ q y, TokenText q (59#8 :: y) → q = .comment := by
    intro q y hq
    by_cases hp : plain q = true
    · exact absurd (plain_bytes hp hq (b := 59#8) (by simp)).1 (by decide)
    · have hq3 : q = .string ∨ q = .whitespace ∨ q = .comment := by
        cases q <;> first | exact absurd rfl hp | simp
      rcases hq3 with rfl | rfl | rfl
      · obtain ⟨z, e⟩ := string_head hq
        injection e with e; revert e; decide
      · exact absurd (hq.2 59#8 (by simp)) (by decide)
      · rfl
  refine ⟨by rw [hhead]; simp, by simp, by rw [take_app]; exact ht, ?_, ?_⟩
  · refine ⟨15, rfl, ?_⟩
    intro j q hj hqj hq
    rw [take_app, hhead] at hq
    have := nostart q _ hq
    subst this
    have hnd : ∀ j : Nat, j < 15 → tokenOrder[j]? ≠ some .comment := by decide
    exact hnd j hj hqj
  · intro m q hm1 hm2 hq
    rw [List.take_append, List.take_of_length_le (by omega)] at hq
    have hqc : q = .comment := by
      rw [hhead] at hq
      exact nostart q _ hq
    subst hqc
    obtain ⟨u', e', hu'⟩ := hq
    have hz : s.take (m - t.length) ≠ [] := by
      intro h0
      have h0' := congrArg List.length h0
      simp only [List.length_take, List.length_nil] at h0'
      simp only [List.length_append] at hm2
      omega
    obtain ⟨z, b, hz⟩ : ∃ z b, s.take (m - t.length) = z ++ [b] :=
      ⟨_, _, (List.dropLast_concat_getLast hz).symm⟩
    rw [hz, hhead] at e'
    have e2 : (u ++ [10#8] ++ z) ++ [b] = u' ++ [10#8] := by
      have : ascii ";" = [59#8] := rfl
      have h2 : ascii "\n" = [10#8] := rfl
      rw [this, h2] at e'
      simpa using e'
    obtain ⟨e3, -⟩ := List.append_inj' e2 rfl
    exact hu' 10#8 (by rw [← e3]; simp) (by decide)

theorem chunks_comment {t s : List Byte} {ls rest} (ht : TokenText .comment t) (h : Chunks s ls rest) :
    Chunks (t ++ s) ((.comment, t) :: ls) rest := by
  have := Chunks.step (munch_comment (s := s) ht) (by rw [List.drop_left]; exact h)
  rwa [take_app] at this

/-- A run of whitespace not followed by more. -/
theorem munch_ws {t s : List Byte} (ht : TokenText .whitespace t) (hs : s = [] ∨ ∃ c u, s = c :: u ∧ isWs c = false) :
    Munch (t ++ s) .whitespace t.length := by
  obtain ⟨d, t', rfl⟩ : ∃ d t', t = d :: t' := by
    cases t with
    | nil => exact absurd rfl ht.1
    | cons d t' => exact ⟨d, t', rfl⟩
  have hd : isWs d = true := (ws_iff d).mpr (ht.2 d (by simp))
  have nostart : ∀ q y, TokenText q (d :: y) → q = .whitespace := by
    intro q y hq
    by_cases hp : plain q = true
    · have := (plain_bytes hp hq (b := d) (by simp)).1
      simp [starts, hd] at this
    · have hq3 : q = .string ∨ q = .whitespace ∨ q = .comment := by
        cases q <;> first | exact absurd rfl hp | simp
      rcases hq3 with rfl | rfl | rfl
      · obtain ⟨z, e⟩ := string_head hq
        injection e with e; subst e; exact absurd hd (by decide)
      · rfl
      · obtain ⟨z, e⟩ := comment_head hq
        injection e with e; subst e; exact absurd hd (by decide)
  refine ⟨by simp, by simp, by rw [take_app]; exact ht, ?_, ?_⟩
  · refine ⟨14, rfl, ?_⟩
    intro j q hj hqj hq
    rw [take_app] at hq
    have := nostart q _ hq
    subst this
    have hnd : ∀ j : Nat, j < 14 → tokenOrder[j]? ≠ some .whitespace := by decide
    exact hnd j hj hqj
  · intro m q hm1 hm2 hq
    rw [List.take_append, List.take_of_length_le (by omega)] at hq
    have := nostart q _ hq
    subst this
    rcases hs with rfl | ⟨c, u, rfl, hc⟩
    · simp only [List.length_append, List.length_nil] at hm2; omega
    · obtain ⟨k, hk⟩ : ∃ k, m - (d :: t').length = k + 1 := ⟨m - (d :: t').length - 1, by omega⟩
      rw [hk] at hq
      have := hq.2 c (by simp)
      rw [← ws_iff, hc] at this; cases this

theorem placed_skip {p : Nat} {r : Rule} {t : List Byte} {ls} (h : IsSkip r) :
    placed p ((r, t) :: ls) = placed (p + t.length) ls := by rw [placed, if_pos h]

/-- One whitespace character before a text: it joins the whitespace there, or is a piece of its own. -/
theorem chunks_ws {b : Byte} {s : List Byte} {ls rest} (hb : oneOf " \t,\n" b) (h : Chunks s ls rest) :
    ∃ ls', Chunks (b :: s) ls' rest ∧ (∀ p, placed p ls' = placed (p + 1) ls) ∧
      (texts ls').length = (texts ls).length + 1 ∧ (∀ p, brk p ls' = newlines p [b] ++ brk (p + 1) ls) := by
  have one : TokenText .whitespace [b] := ⟨by simp, by simpa using hb⟩
  by_cases hs : ∃ c u, s = c :: u ∧ isWs c = true
  · obtain ⟨c, u, rfl, hc⟩ := hs
    cases h with
    | done hn =>
      refine absurd ?_ (hn 1 .whitespace (by omega) (by simp))
      exact ⟨by simp, by simpa using (ws_iff c).mp hc⟩
    | @step _ r n ls rest hm hrest =>
      obtain ⟨n', rfl⟩ : ∃ n', n = n' + 1 := ⟨n - 1, by have := hm.pos; omega⟩
      have ht := hm.token
      rw [List.take_succ_cons] at ht
      have hr : r = .whitespace := by
        by_cases hp : plain r = true
        · have := (plain_bytes hp ht (b := c) (by simp)).1
          simp [starts, hc] at this
        · have hq3 : r = .string ∨ r = .whitespace ∨ r = .comment := by
            cases r <;> first | exact absurd rfl hp | simp
          rcases hq3 with rfl | rfl | rfl
          · obtain ⟨z, e⟩ := string_head ht
            injection e with e; subst e; exact absurd hc (by decide)
          · rfl
          · obtain ⟨z, e⟩ := comment_head ht
            injection e with e; subst e; exact absurd hc (by decide)
      subst hr
      have hle := hm.le
      have hsplit : c :: u = (c :: u).take (n' + 1) ++ (c :: u).drop (n' + 1) := (List.take_append_drop _ _).symm
      have hlen : ((c :: u).take (n' + 1)).length = n' + 1 := by rw [List.length_take]; exact Nat.min_eq_left hle
      have hnext : (c :: u).drop (n' + 1) = [] ∨ ∃ c' u', (c :: u).drop (n' + 1) = c' :: u' ∧ isWs c' = false := by
        cases hdr : (c :: u).drop (n' + 1) with
        | nil => exact Or.inl rfl
        | cons c' u' =>
          refine Or.inr ⟨c', u', rfl, ?_⟩
          cases hc' : isWs c' with
          | false => rfl
          | true =>
            exfalso
            refine hm.longest (n' + 2) .whitespace (by omega) ?_ ?_
            · have := congrArg List.length hdr
              simp only [List.length_drop, List.length_cons] at this ⊢
              omega
            · rw [show n' + 2 = (n' + 1) + 1 from rfl, List.take_add, hdr]
              refine ⟨by simp, ?_⟩
              intro y hy
              rcases List.mem_append.mp hy with hy | hy
              · rw [List.take_succ_cons] at hy; exact ht.2 y hy
              · simp at hy; subst hy; exact (ws_iff y).mp hc'
      have htw : TokenText .whitespace (b :: (c :: u).take (n' + 1)) := by
        refine ⟨by simp, ?_⟩
        intro y hy
        rcases List.mem_cons.mp hy with rfl | hy
        · exact hb
        · rw [List.take_succ_cons] at hy; exact ht.2 y hy
      have hmm := munch_ws htw hnext
      have hstep := Chunks.step hmm (by rw [List.drop_left]; exact hrest)
      rw [take_app, List.cons_append, ← hsplit] at hstep
      refine ⟨_, hstep, ?_, ?_, ?_⟩
      · intro p
        rw [placed_skip (Or.inl rfl), placed_skip (Or.inl rfl), List.length_cons]
        congr 1; omega
      · simp only [texts, List.map_cons, List.flatten_cons, List.length_append, List.length_cons]
        omega
      · intro p
        rw [brk_skip (Or.inl rfl), brk_skip (Or.inl rfl), show b :: (c :: u).take (n' + 1) = [b] ++ (c :: u).take (n' + 1) from rfl,
          newlines_append, List.append_assoc, List.length_append, List.length_singleton, Nat.add_assoc]
  · have hs' : s = [] ∨ ∃ c u, s = c :: u ∧ isWs c = false := by
      cases s with
      | nil => exact Or.inl rfl
      | cons c u =>
        refine Or.inr ⟨c, u, rfl, ?_⟩
        cases hc : isWs c with
        | false => rfl
        | true => exact absurd ⟨c, u, rfl, hc⟩ hs
    have hstep := Chunks.step (munch_ws one hs') (by rw [List.drop_left]; exact h)
    rw [take_app] at hstep
    refine ⟨_, hstep, fun p => placed_skip (Or.inl rfl), ?_, fun p => brk_skip (Or.inl rfl)⟩
    simp only [texts, List.map_cons, List.flatten_cons, List.length_append, List.length_cons, List.length_nil]
    omega

theorem chunks_wss {t : List Byte} (ht : ∀ b ∈ t, oneOf " \t,\n" b) {s : List Byte} {ls rest} (h : Chunks s ls rest) :
    ∃ ls', Chunks (t ++ s) ls' rest ∧ (∀ p, placed p ls' = placed (p + t.length) ls) ∧
      (texts ls').length = (texts ls).length + t.length ∧ (∀ p, brk p ls' = newlines p t ++ brk (p + t.length) ls) := by
  induction t with
  | nil => exact ⟨ls, h, fun p => rfl, rfl, fun p => rfl⟩
  | cons b t ih =>
    obtain ⟨ls1, h1, h2, h3, h3'⟩ := ih (fun x hx => ht x (by simp [hx]))
    obtain ⟨ls2, h4, h5, h6, h6'⟩ := chunks_ws (ht b (by simp)) h1
    refine ⟨ls2, h4, fun p => ?_, by simp; omega, fun p => ?_⟩
    · rw [h5, h2]; congr 1; simp; omega
    · rw [h6', h3', show b :: t = [b] ++ t from rfl, newlines_append, List.append_assoc, List.length_append,
        List.length_singleton, Nat.add_assoc]

theorem chunks_blank {ok : Byte → Prop} {w : List Byte} (hw : Blank ok w) {s : List Byte} {ls rest} (h : Chunks s ls rest) :
    ∃ ls', Chunks (w ++ s) ls' rest ∧ (∀ p, placed p ls' = placed (p + w.length) ls) ∧
      (texts ls').length = (texts ls).length + w.length ∧ (∀ p, brk p ls' = newlines p w ++ brk (p + w.length) ls) := by
  induction hw with
  | nil => exact ⟨ls, h, fun p => rfl, rfl, fun p => rfl⟩
  | @space b w hb _ ih =>
    obtain ⟨ls1, h1, h2, h3, h3'⟩ := ih
    obtain ⟨ls2, h4, h5, h6, h6'⟩ := chunks_ws hb h1
    refine ⟨ls2, h4, fun p => ?_, by simp; omega, fun p => ?_⟩
    · rw [h5, h2]; congr 1; simp; omega
    · rw [h6', h3', show b :: w = [b] ++ w from rfl, newlines_append, List.append_assoc, List.length_append,
        List.length_singleton, Nat.add_assoc]
  | @comment u w hu _ ih =>
    obtain ⟨ls1, h1, h2, h3, h3'⟩ := ih
    have ht : TokenText .comment (ascii ";" ++ u ++ ascii "\n") := ⟨u, rfl, fun b hb => (hu b hb).1⟩
    refine ⟨_, by rw [List.append_assoc]; exact chunks_comment ht h1, fun p => ?_, ?_, fun p => ?_⟩
    · rw [placed_skip (Or.inr rfl), h2]; congr 1; simp only [List.length_append]; omega
    · simp only [texts, List.map_cons, List.flatten_cons, List.length_append] at h3 ⊢; omega
    · rw [brk_skip (Or.inr rfl), h3']
      generalize ascii ";" ++ u ++ ascii "\n" = t
      rw [newlines_append, List.append_assoc, Nat.add_assoc, ← List.length_append]

theorem placed_append : ∀ (l1 l2 : List (Rule × List Byte)) (p : Nat),
    placed p (l1 ++ l2) = placed p l1 ++ placed (p + (texts l1).length) l2
  | [], l2, p => by simp [placed, texts]
  | (r, t) :: l1, l2, p => by
    have e : p + t.length + (texts l1).length = p + (texts ((r, t) :: l1)).length := by
      simp only [texts, List.map_cons, List.flatten_cons, List.length_append]; omega
    rw [List.cons_append, placed, placed, placed_append l1 l2, e]
    split <;> simp

theorem brk_append : ∀ (l1 l2 : List (Rule × List Byte)) (p : Nat),
    brk p (l1 ++ l2) = brk p l1 ++ brk (p + (texts l1).length) l2
  | [], l2, p => by simp [brk, texts]
  | (r, t) :: l1, l2, p => by
    have e : p + t.length + (texts l1).length = p + (texts ((r, t) :: l1)).length := by
      simp only [texts, List.map_cons, List.flatten_cons, List.length_append]; omega
    rw [List.cons_append, brk, brk, brk_append l1 l2, e, List.append_assoc]

theorem brk_bounds : ∀ (ls : List (Rule × List Byte)) (p : Nat), ∀ x ∈ brk p ls, p < x ∧ x ≤ p + (texts ls).length
  | [], p, x, hx => by cases hx
  | (r, t) :: ls, p, x, hx => by
    have e : (texts ((r, t) :: ls)).length = t.length + (texts ls).length := by simp [texts]
    rw [brk] at hx
    rcases List.mem_append.mp hx with hx | hx
    · split at hx
      · obtain ⟨i, hi, rfl⟩ := mem_newlines.mp hx
        have := (List.getElem?_eq_some_iff.mp hi).1
        omega
      · cases hx
    · have := brk_bounds ls _ x hx
      omega

theorem newlines_lineStarts : ∀ (w : List Byte) (p : Nat), newlines p w = lineStarts p w
  | [], p => rfl
  | b :: w, p => by
    have ih := newlines_lineStarts w (p + 1)
    unfold lineStarts at ih ⊢
    rw [newlines, ih, List.length_cons, List.range_succ_eq_map, List.filter_cons, List.filter_map, Function.comp_def]
    have e : (fun i : Nat => decide ((b :: w)[Nat.succ i]? = some 10#8)) = fun i => decide (w[i]? = some 10#8) := by
      funext i; simp
    rw [e]
    by_cases hb : b = 10#8
    · rw [if_pos hb, if_pos (by simp [hb]), List.map_cons, List.map_map]
      congr 1
      apply List.map_congr_left
      intro i _; simp only [Function.comp_def]; omega
    · rw [if_neg hb, if_neg (by simp [hb]), List.map_map]
      apply List.map_congr_left
      intro i _; simp only [Function.comp_def]; omega

theorem parse_breaks {L : Lib} {s : List Byte} {ls rest} (h : Chunks s ls rest) {fuel : Nat} {tab : SymTab} {d : Doc}
    (hp : parse L fuel tab s = .ok d) : d.breaks = brk 0 ls := by
  unfold parse at hp
  rw [lex_spec L (lexemes_iff.mpr h)] at hp
  obtain ⟨⟨ts, l⟩, hlex, hp⟩ := Outcome.bind_eq_ok.mp hp
  obtain ⟨ts', -, hh⟩ := Outcome.bind_eq_ok.mp hlex
  injection hh with hh
  injection hh with _ hh2
  obtain ⟨⟨s', ns⟩, -, hd⟩ := Outcome.bind_eq_ok.mp hp
  injection hd with hd
  rw [← hd]
  show l.breaks = _
  rw [← hh2, endOf_breaks, steps_brk]; rfl

theorem breaks_moved {L : Lib} {s s' : List Byte} {l1 l2 ls' rest rest'} {w : List Byte} (h : Chunks s (l1 ++ l2) rest)
    (h' : Chunks s' ls' rest')
    (hb : brk 0 ls' = brk 0 l1 ++ newlines (texts l1).length w ++ brk ((texts l1).length + w.length) l2)
    (fuel : Nat) (tab : SymTab) :
    BreaksMoved (texts l1).length w (parse L fuel tab s) (parse L fuel tab s') := by
  cases hp : parse L fuel tab s with
  | ok d =>
    cases hp' : parse L fuel tab s' with
    | ok d' =>
      show d'.breaks = _
      rw [parse_breaks h hp, parse_breaks h' hp', hb, brk_append, Nat.zero_add, List.filter_append, List.filter_append,
        brk_add l2 (texts l1).length w.length, ← newlines_lineStarts]
      have b1 := brk_bounds l1 0
      have b2 := brk_bounds l2 (texts l1).length
      have f1 : (brk 0 l1).filter (fun i => decide (i ≤ (texts l1).length)) = brk 0 l1 :=
        List.filter_eq_self.mpr (fun x hx => by have := b1 x hx; simp; omega)
      have f2 : (brk (texts l1).length l2).filter (fun i => decide (i ≤ (texts l1).length)) = [] :=
        List.filter_eq_nil_iff.mpr (fun x hx => by have := b2 x hx; simp; omega)
      have f3 : (brk 0 l1).filter (fun i => decide ((texts l1).length < i)) = [] :=
        List.filter_eq_nil_iff.mpr (fun x hx => by have := b1 x hx; simp; omega)
      have f4 : (brk (texts l1).length l2).filter (fun i => decide ((texts l1).length < i)) = brk (texts l1).length l2 :=
        List.filter_eq_self.mpr (fun x hx => by have := b2 x hx; simp; omega)
      rw [f1, f2, f3, f4, List.append_nil, List.nil_append]
    | _ => trivial
  | _ => cases parse L fuel tab s' <;> trivial

/-- Text that fits, before a text that is read in the same way with it in front. -/
theorem chunks_insert {w v : List Byte} (hw : Fits w v) {l2 l2' : List (Rule × List Byte)} {rest rest' : List Byte}
    (hv' : Chunks (w ++ v) l2' rest') :
    ∀ (l1 : List (Rule × List Byte)) (s : List Byte), Chunks s (l1 ++ l2) rest → s = texts l1 ++ v →
      ∃ ls', Chunks (texts l1 ++ (w ++ v)) ls' rest' ∧
        (∀ p, placed p ls' = placed p l1 ++ placed (p + (texts l1).length) l2') ∧
        (texts ls').length = (texts l1).length + (texts l2').length ∧
        (∀ p, brk p ls' = brk p l1 ++ brk (p + (texts l1).length) l2')
  | [], s, h, e => ⟨l2', by simpa [texts] using hv', fun p => by simp [placed, texts], by simp [texts], fun p => by simp [brk, texts]⟩
  | (r, t) :: l1, s, h, e => by
    have htx : texts ((r, t) :: l1) = t ++ texts l1 := by simp [texts]
    generalize hls : (r, t) :: l1 ++ l2 = ls at h
    cases h with
    | done => cases hls
    | @step _ r' n ls rest hm hrest =>
      rw [List.cons_append] at hls
      injection hls with h1 h2
      injection h1 with h1 h3
      subst h1; subst h2
      have hlen : t.length = n := by rw [h3, List.length_take]; exact Nat.min_eq_left hm.le
      have hdrop : s.drop n = texts l1 ++ v := by
        rw [e, htx, ← hlen, List.append_assoc, List.drop_left]
      obtain ⟨ls1, g1, g2, g3, g4⟩ := chunks_insert hw hv' l1 (s.drop n) hrest hdrop
      have htok : TokenText r t := by have := hm.token; rwa [← h3] at this
      rw [htx, List.append_assoc]
      by_cases hsk : IsSkip r
      · rcases hsk with rfl | rfl
        · obtain ⟨ls2, k1, k2, k3, k4⟩ := chunks_wss htok.2 g1
          refine ⟨ls2, k1, fun p => ?_, by rw [k3, g3]; simp; omega, fun p => ?_⟩
          · rw [k2, g2, placed_skip (Or.inl rfl)]
            congr 2; simp; omega
          · rw [k4, g4, brk_skip (Or.inl rfl), List.append_assoc]
            congr 3; simp; omega
        · refine ⟨_, chunks_comment htok g1, fun p => ?_, ?_, fun p => ?_⟩
          · rw [placed_skip (Or.inr rfl), placed_skip (Or.inr rfl), g2]
            congr 2; simp; omega
          · have : texts ((Rule.comment, t) :: ls1) = t ++ texts ls1 := by simp [texts]
            rw [this]; simp only [List.length_append]; omega
          · rw [brk_skip (Or.inr rfl), g4, brk_skip (Or.inr rfl), List.append_assoc]
            congr 3; simp; omega
      · have hm' : Munch (t ++ (texts l1 ++ v)) r t.length := by
          rw [hlen]
          have : s = t ++ (texts l1 ++ v) := by rw [e, htx, List.append_assoc]
          rwa [← this]
        have hstep := Chunks.step (munch_insert hm' hsk hw) (by rw [List.drop_left]; exact g1)
        rw [take_app] at hstep
        refine ⟨_, hstep, fun p => ?_, ?_, fun p => ?_⟩
        · rw [placed, if_neg hsk, placed, if_neg hsk, g2, List.cons_append]
          congr 3; simp; omega
        · have : texts ((r, t) :: ls1) = t ++ texts ls1 := by simp [texts]
          rw [this]; simp only [List.length_append]; omega
        · rw [brk, if_neg hsk, brk, if_neg hsk, g4, List.nil_append, List.nil_append]
          congr 2; simp; omega

end Ab.Edn.Layout
