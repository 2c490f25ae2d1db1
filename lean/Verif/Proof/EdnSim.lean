import Verif.Proof.EdnLexer3
/-! The parser's results do not depend on where END is, except for error positions. -/
namespace Ab.Edn

open Spec Re

/-- The same state up to error positions. -/
structure Sim (s s' : PS) : Prop where
  toks : s'.toks = s.toks
  tab : s'.tab = s.tab
  log : s'.log.map (·.msg) = s.log.map (·.msg)

/-- The same outcome up to error positions. -/
def SimO {α : Type} (a b : Outcome (PS × α)) : Prop :=
  (∃ s s' x, a = .ok (s, x) ∧ b = .ok (s', x) ∧ Sim s s') ∨ (∃ w, a = .trap w ∧ b = .trap w) ∨
  (∃ w, a = .ub w ∧ b = .ub w) ∨ (∃ w, a = .throw w ∧ b = .throw w) ∨ (a = .fuel ∧ b = .fuel)

theorem SimO.ok {α : Type} {s s' : PS} {x : α} (h : Sim s s') : SimO (.ok (s, x)) (.ok (s', x)) :=
  Or.inl ⟨s, s', x, rfl, rfl, h⟩

theorem SimO.bind {α β : Type} {a b : Outcome (PS × α)} {f g : PS × α → Outcome (PS × β)} (h : SimO a b)
    (hf : ∀ s s' x, Sim s s' → SimO (f (s, x)) (g (s', x))) : SimO (a >>= f) (b >>= g) := by
  rcases h with ⟨s, s', x, rfl, rfl, hs⟩ | ⟨w, rfl, rfl⟩ | ⟨w, rfl, rfl⟩ | ⟨w, rfl, rfl⟩ | ⟨rfl, rfl⟩
  · exact hf s s' x hs
  · exact Or.inr (Or.inl ⟨w, rfl, rfl⟩)
  · exact Or.inr (Or.inr (Or.inl ⟨w, rfl, rfl⟩))
  · exact Or.inr (Or.inr (Or.inr (Or.inl ⟨w, rfl, rfl⟩)))
  · exact Or.inr (Or.inr (Or.inr (Or.inr ⟨rfl, rfl⟩)))

theorem SimO.bindHash {β : Type} {o : Outcome U64} {f g : U64 → Outcome (PS × β)}
    (hf : ∀ x, SimO (f x) (g x)) : SimO (o >>= f) (o >>= g) := by
  cases o with
  | ok x => exact hf x
  | trap w => exact Or.inr (Or.inl ⟨w, rfl, rfl⟩)
  | ub w => exact Or.inr (Or.inr (Or.inl ⟨w, rfl, rfl⟩))
  | throw w => exact Or.inr (Or.inr (Or.inr (Or.inl ⟨w, rfl, rfl⟩)))
  | fuel => exact Or.inr (Or.inr (Or.inr (Or.inr ⟨rfl, rfl⟩)))

theorem SimO.fuel {α : Type} : SimO (α := α) .fuel .fuel := Or.inr (Or.inr (Or.inr (Or.inr ⟨rfl, rfl⟩)))

theorem Sim.kind {s s' : PS} (h : Sim s s') : s'.kind = s.kind := by
  unfold PS.kind; rw [h.toks]

theorem Sim.adv {s s' : PS} (h : Sim s s') : Sim s.adv s'.adv :=
  ⟨by simp [PS.adv, h.toks], h.tab, h.log⟩

theorem err_msgs (s : PS) (m : String) : (s.err m).log.map (·.msg) = s.log.map (·.msg) ++ [m] := by
  unfold PS.err
  split <;> simp

theorem err_toks (s : PS) (m : String) : (s.err m).toks = s.toks := by unfold PS.err; split <;> rfl
theorem err_tab (s : PS) (m : String) : (s.err m).tab = s.tab := by unfold PS.err; split <;> rfl

theorem Sim.err {s s' : PS} (h : Sim s s') (m : String) : Sim (s.err m) (s'.err m) :=
  ⟨by rw [err_toks, err_toks, h.toks], by rw [err_tab, err_tab, h.tab],
   by rw [err_msgs, err_msgs, h.log]⟩

theorem Sim.sym {s s' : PS} (h : Sim s s') (t : List Byte) :
    Sim (parseSym s t).1 (parseSym s' t).1 ∧ (parseSym s' t).2 = (parseSym s t).2 := by
  unfold parseSym
  rw [h.tab]
  exact ⟨⟨h.adv.toks, rfl, h.log⟩, rfl⟩

theorem Sim.push {s s' : PS} (h : Sim s s') (t : Token) (m : String) :
    Sim { s.adv with log := s.log ++ [⟨t.lo, t.hi, m⟩] } { s'.adv with log := s'.log ++ [⟨t.lo, t.hi, m⟩] } :=
  ⟨h.adv.toks, h.tab, by simp [h.log]⟩

theorem sim_all (L : Lib) : ∀ (fuel : Nat),
    (∀ s s', Sim s s' → SimO (parseNode L fuel s) (parseNode L fuel s')) ∧
    (∀ b s s' acc, Sim s s' → SimO (parseSeq L fuel b s acc) (parseSeq L fuel b s' acc)) ∧
    (∀ s s' es, Sim s s' → SimO (parseMap L fuel s es) (parseMap L fuel s' es)) := by
  intro fuel
  induction fuel with
  | zero =>
    refine ⟨fun s s' h => ?_, fun b s s' acc h => ?_, fun s s' es h => ?_⟩
    · simp only [parseNode]; exact .fuel
    · simp only [parseSeq]; exact .fuel
    · simp only [parseMap]; exact .fuel
  | succ fuel ih =>
    obtain ⟨ihN, ihS, ihM⟩ := ih
    refine ⟨fun s s' h => ?_, fun b s s' acc h => ?_, fun s s' es h => ?_⟩
    · simp only [parseNode, h.toks]
      cases s.toks with
      | nil => exact .ok h
      | cons t ts =>
        simp only
        cases t.kind with
        | lparen => exact .bind (ihS _ _ _ _ h.adv) (fun _ _ _ h => .ok h)
        | lbracket => exact .bind (ihS _ _ _ _ h.adv) (fun _ _ _ h => .ok h)
        | lbrace => exact .bind (ihM _ _ _ h.adv) (fun _ _ _ h => .ok h)
        | symbol => simp only [(h.sym t.text).2]; exact .ok (h.sym t.text).1
        | keyword => simp only [(h.sym t.text).2]; exact .ok (h.sym t.text).1
        | rparen => exact .ok (h.push t _)
        | rbrace => exact .ok (h.push t _)
        | rbracket => exact .ok (h.push t _)
        | _ => exact .ok h.adv
    · simp only [parseSeq, h.kind]
      cases s.kind with
      | none => exact .ok (h.err _)
      | some k =>
        cases k with
        | rparen => cases b <;> exact .ok (by first | exact h.adv | exact (h.err _).adv)
        | rbracket => cases b <;> exact .ok (by first | exact h.adv | exact (h.err _).adv)
        | rbrace => exact Or.inr (Or.inr (Or.inr (Or.inl ⟨_, rfl, rfl⟩)))
        | _ => exact .bind (ihN _ _ h) (fun s s' x h => by cases x <;> exact ihS _ _ _ _ h)
    · simp only [parseMap, h.kind]
      cases s.kind with
      | none => exact ihM _ _ _ ((h.err _).err _)
      | some k =>
        cases k with
        | rbrace => exact .ok h.adv
        | rparen => exact .ok (h.err _).adv
        | rbracket => exact .ok (h.err _).adv
        | _ =>
          refine .bind (ihN _ _ h) (fun s s' x h => ?_)
          cases x with
          | none => exact ihM _ _ _ (h.err _)
          | some k =>
            simp only [h.kind]
            cases s.kind with
            | none => exact ihM _ _ _ ((h.err _).err _)
            | some kk =>
              cases kk with
              | rbrace => exact Or.inr (Or.inr (Or.inr (Or.inl ⟨_, rfl, rfl⟩)))
              | rparen => exact Or.inr (Or.inr (Or.inr (Or.inl ⟨_, rfl, rfl⟩)))
              | _ =>
                refine .bind (ihN _ _ h) (fun s s' x h => ?_)
                cases x with
                | none => exact ihM _ _ _ (h.err _)
                | some v =>
                  refine .bindHash (fun _ => ?_)
                  simp only
                  cases findKey L es k with
                  | none => exact ihM _ _ _ h
                  | some e => exact ihM _ _ _ (h.err _)

theorem sim_top (L : Lib) : ∀ (fuel : Nat) (s s' : PS) (acc : List Node), Sim s s' →
    SimO (parseTop L fuel s acc) (parseTop L fuel s' acc) := by
  intro fuel
  induction fuel with
  | zero => intro s s' acc h; exact .fuel
  | succ fuel ih =>
    intro s s' acc h
    simp only [parseTop, h.toks]
    cases s.toks with
    | nil => exact .ok h
    | cons t ts => exact .bind ((sim_all L fuel).1 _ _ h) (fun s s' x h => by cases x <;> exact ih _ _ _ h)

end Ab.Edn
