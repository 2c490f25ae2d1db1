import Verif.Spec.EdnParse
import Verif.Spec.Edn
import Verif.Proof.EdnSim
/-! When the parser returns. -/
namespace Ab.Edn

open Spec

/-- The node has a hash. -/
def Hashable (L : Lib) (n : Node) : Prop := ∃ h, Node.hash L n = .ok h

theorem hashList_ok {L : Lib} : ∀ {xs : List Node}, (∀ x ∈ xs, Hashable L x) → ∀ h, ∃ h', hashList L xs h = .ok h'
  | [], _, h => ⟨h, by simp [hashList]⟩
  | x :: xs, hx, h => by
    obtain ⟨a, ha⟩ := hx x (by simp)
    obtain ⟨b, hb⟩ := hashList_ok (L := L) (xs := xs) (fun y hy => hx y (by simp [hy])) (mix h a)
    exact ⟨b, by simp [hashList, ha, hb]⟩

theorem hashEntries_ok {L : Lib} : ∀ {es : List Entry}, (∀ e ∈ es, Hashable L e.1 ∧ Hashable L e.2) →
    ∀ h, ∃ h', hashEntries L es h = .ok h'
  | [], _, h => ⟨h, by simp [hashEntries]⟩
  | (k, v) :: es, hx, h => by
    obtain ⟨⟨a, ha⟩, ⟨b, hb⟩⟩ := hx (k, v) (by simp)
    obtain ⟨c, hc⟩ := hashEntries_ok (L := L) (es := es) (fun y hy => hx y (by simp [hy])) (mix (mix h a) b)
    simp only at ha hb
    exact ⟨c, by simp [hashEntries, hashEntry, ha, hb, hc]⟩

theorem hashable_list {L : Lib} {xs : List Node} (h : ∀ x ∈ xs, Hashable L x) : Hashable L (.list xs) := by
  obtain ⟨a, ha⟩ := hashList_ok h (mix HASH_SEED 8#64)
  exact ⟨a, by simp [Node.hash, ha]⟩

theorem hashable_vec {L : Lib} {xs : List Node} (h : ∀ x ∈ xs, Hashable L x) : Hashable L (.vec xs) := by
  obtain ⟨a, ha⟩ := hashList_ok h (mix HASH_SEED 9#64)
  exact ⟨a, by simp [Node.hash, ha]⟩

theorem hashable_map {L : Lib} {es : List Entry} (h : ∀ e ∈ es, Hashable L e.1 ∧ Hashable L e.2) :
    Hashable L (.map es) := by
  obtain ⟨a, ha⟩ := hashEntries_ok h HASH_SEED
  exact ⟨a, by simp [Node.hash, ha]⟩

theorem insert_hashable {L : Lib} (hL : Lawful L) {es : List Entry} {e : Entry}
    (h : ∀ e ∈ es, Hashable L e.1 ∧ Hashable L e.2) (he : Hashable L e.1 ∧ Hashable L e.2) :
    ∀ x ∈ insertEntry L es e, Hashable L x.1 ∧ Hashable L x.2 := by
  unfold insertEntry
  split
  · exact h
  · intro x hx
    rcases List.mem_cons.mp ((hL.place_perm es e).mem_iff.mp hx) with h1 | h1
    · subst h1; exact he
    · exact h x h1

@[simp] theorem adv_toks (s : PS) : s.adv.toks = s.toks.tail := rfl

theorem kind_none {s : PS} (h : s.kind = none) : s.toks = [] := by
  unfold PS.kind at h
  cases hs : s.toks with
  | nil => rfl
  | cons t ts => simp [hs] at h

theorem kind_some {s : PS} {k} (h : s.kind = some k) : ∃ t ts, s.toks = t :: ts ∧ t.kind = k := by
  unfold PS.kind at h
  cases hs : s.toks with
  | nil => simp [hs] at h
  | cons t ts => simp [hs] at h; exact ⟨t, ts, rfl, h⟩

theorem verdict_cons (st : List Frame) (t : Token) (ts : List Token) :
    verdict st (t :: ts) = match tokenStep st t.kind with
      | some st => verdict st ts
      | none => .throws := by
  unfold verdict
  rw [openAfter]
  cases tokenStep st t.kind <;> rfl

theorem verdict_seq_nil (st : List Frame) : verdict (.seq :: st) [] = verdict st [] := by
  unfold verdict openAfter
  simp

theorem verdict_key_nil (st : List Frame) : verdict (.key :: st) [] = .runs := by
  unfold verdict openAfter
  simp

theorem verdict_val_nil (st : List Frame) : verdict (.val :: st) [] = .runs := by
  unfold verdict openAfter
  simp

/-- Is the kind a closing delimiter? -/
def isCloser : Kind → Bool
  | .rparen | .rbracket | .rbrace => true
  | _ => false

/-- What a call of `parseNode` tells when it returns. -/
structure NodeOk (L : Lib) (s s' : PS) (r : Option Node) : Prop where
  some_of : ∀ t ts, s.toks = t :: ts → isCloser t.kind = false → r.isSome = true
  shorter : s.toks ≠ [] → s'.toks.length < s.toks.length
  le : s'.toks.length ≤ s.toks.length
  hash : ∀ x, r = some x → Hashable L x
  track : ∀ x, r = some x → ∀ st, verdict st s.toks = verdict (datum st) s'.toks
  trackNone : r = none → ∀ t ts, s.toks = t :: ts → isCloser t.kind = true ∧ s'.toks = ts

/-- What `parseSeq` and `parseMap` tell when they return. -/
structure CollOk (f : Frame) (s s' : PS) : Prop where
  le : s'.toks.length ≤ s.toks.length
  track : ∀ st, verdict (f :: st) s.toks = verdict st s'.toks

/-- It returns with the given guarantee, or it is still running, or it has thrown, which is only possible if `T`. -/
def Good {α : Type} (o : Outcome (PS × α)) (P : PS → α → Prop) (T : Prop) : Prop :=
  (∃ s x, o = .ok (s, x) ∧ P s x) ∨ o = .fuel ∨ o = .throw fmtBrace ∧ T

theorem Good.bind {α β : Type} {o : Outcome (PS × α)} {P : PS → α → Prop} {T U : Prop} {f : PS × α → Outcome (PS × β)}
    {Q : PS → β → Prop} (h : Good o P T) (ht : T → U) (hf : ∀ s x, P s x → Good (f (s, x)) Q U) : Good (o >>= f) Q U := by
  rcases h with ⟨s, x, rfl, hp⟩ | rfl | ⟨rfl, t⟩
  · exact hf s x hp
  · exact Or.inr (Or.inl rfl)
  · exact Or.inr (Or.inr ⟨rfl, ht t⟩)

theorem Good.ok {α : Type} {P : PS → α → Prop} {T : Prop} {s : PS} {x : α} (h : P s x) : Good (.ok (s, x)) P T :=
  Or.inl ⟨s, x, rfl, h⟩

theorem Good.fuel {α : Type} {P : PS → α → Prop} {T : Prop} : Good (.fuel : Outcome (PS × α)) P T := Or.inr (Or.inl rfl)

theorem Good.throw {α : Type} {P : PS → α → Prop} {T : Prop} (h : T) : Good (.throw fmtBrace : Outcome (PS × α)) P T :=
  Or.inr (Or.inr ⟨rfl, h⟩)

theorem Good.mono {α : Type} {o : Outcome (PS × α)} {P Q : PS → α → Prop} {T U : Prop} (h : Good o P T)
    (hpq : ∀ s x, P s x → Q s x) (ht : T → U) : Good o Q U := by
  rcases h with ⟨s, x, rfl, hp⟩ | rfl | ⟨rfl, t⟩
  · exact .ok (hpq s x hp)
  · exact .fuel
  · exact .throw (ht t)

theorem atom_ok {L : Lib} {s s' : PS} {t : Token} {ts : List Token} {x : Node} (hs : s.toks = t :: ts)
    (hs' : s'.toks = ts) (hx : Hashable L x) (hk : ∀ st, tokenStep st t.kind = some (datum st)) :
    NodeOk L s s' (some x) := by
  refine ⟨fun _ _ _ _ => rfl, ?_, ?_, ?_, ?_, ?_⟩
  · intro _; rw [hs, hs']; simp
  · rw [hs, hs']; simp
  · intro y hy; injection hy with hy; subst hy; exact hx
  · intro _ _ st; rw [hs, hs', verdict_cons, hk]
  · intro h; cases h

theorem opener_ok {L : Lib} {s s' : PS} {f : Frame} {t : Token} {ts : List Token} {x : Node} (hs : s.toks = t :: ts)
    (hx : Hashable L x) (hk : ∀ st, tokenStep st t.kind = some (f :: datum st)) (h : CollOk f s.adv s') :
    NodeOk L s s' (some x) := by
  have hle := h.le
  rw [adv_toks, hs] at hle
  simp at hle
  refine ⟨fun _ _ _ _ => rfl, ?_, ?_, ?_, ?_, ?_⟩
  · intro _; rw [hs]; simp; omega
  · rw [hs]; simp; omega
  · intro y hy; injection hy with hy; subst hy; exact hx
  · intro _ _ st
    rw [hs, verdict_cons, hk]
    have := h.track (datum st)
    rw [adv_toks, hs] at this
    exact this
  · intro h; cases h

theorem good_all {L : Lib} (hL : Lawful L) : ∀ (fuel : Nat),
    (∀ s, Good (parseNode L fuel s) (fun s' r => NodeOk L s s' r) (∀ st, verdict st s.toks = .throws)) ∧
    (∀ b s acc, (∀ x ∈ acc, Hashable L x) →
      Good (parseSeq L fuel b s acc) (fun s' xs => CollOk .seq s s' ∧ ∀ x ∈ xs, Hashable L x)
        (∀ st, verdict (.seq :: st) s.toks = .throws)) ∧
    (∀ s es, (∀ e ∈ es, Hashable L e.1 ∧ Hashable L e.2) →
      Good (parseMap L fuel s es) (fun s' es => CollOk .key s s' ∧ ∀ e ∈ es, Hashable L e.1 ∧ Hashable L e.2)
        (∀ st, verdict (.key :: st) s.toks = .throws)) := by
  intro fuel
  induction fuel with
  | zero =>
    refine ⟨fun s => ?_, fun b s acc h => ?_, fun s es h => ?_⟩
    · simp only [parseNode]; exact .fuel
    · simp only [parseSeq]; exact .fuel
    · simp only [parseMap]; exact .fuel
  | succ fuel ih =>
    obtain ⟨ihN, ihS, ihM⟩ := ih
    refine ⟨fun s => ?_, fun b s acc hacc => ?_, fun s es hes => ?_⟩
    · simp only [parseNode]
      cases hs : s.toks with
      | nil =>
        refine .ok ⟨?_, ?_, Nat.le_refl _, ?_, ?_, ?_⟩
        · intro t ts h; rw [hs] at h; cases h
        · intro h; exact absurd hs h
        · intro x h; cases h
        · intro x h; cases h
        · intro _ t ts h; rw [hs] at h; cases h
      | cons t ts =>
        simp only
        have hadv : s.adv.toks = ts := by rw [adv_toks, hs]; rfl
        have closer : isCloser t.kind = true → ∀ m, NodeOk L s { s.adv with log := m } none := by
          intro hc m
          refine ⟨?_, ?_, ?_, ?_, ?_, ?_⟩
          · intro t' ts' h hc'
            rw [hs] at h; injection h with h1 h2; subst h1; rw [hc] at hc'; cases hc'
          · intro _; show s.adv.toks.length < _; rw [hadv, hs]; simp
          · show s.adv.toks.length ≤ _; rw [hadv, hs]; simp
          · intro x h; cases h
          · intro x h; cases h
          · intro _ t' ts' h
            rw [hs] at h; injection h with h1 h2; subst h1; subst h2; exact ⟨hc, hadv⟩
        have opened : ∀ {f : Frame}, (∀ st, tokenStep st t.kind = some (f :: datum st)) →
            (∀ st, verdict (f :: st) s.adv.toks = .throws) → ∀ st, verdict st (t :: ts) = .throws := by
          intro f hf h st
          rw [verdict_cons, hf, ← hadv]
          exact h _
        cases hk : t.kind with
        | nil => exact .ok (atom_ok hs hadv ⟨_, rfl⟩ (by intro st; rw [hk]; rfl))
        | bool b => exact .ok (atom_ok hs hadv ⟨_, rfl⟩ (by intro st; rw [hk]; rfl))
        | integer v => exact .ok (atom_ok hs hadv ⟨_, rfl⟩ (by intro st; rw [hk]; rfl))
        | real v => exact .ok (atom_ok hs hadv ⟨_, rfl⟩ (by intro st; rw [hk]; rfl))
        | string => exact .ok (atom_ok hs hadv ⟨_, rfl⟩ (by intro st; rw [hk]; rfl))
        | symbol => exact .ok (atom_ok hs hadv ⟨_, rfl⟩ (by intro st; rw [hk]; rfl))
        | keyword => exact .ok (atom_ok hs hadv ⟨_, rfl⟩ (by intro st; rw [hk]; rfl))
        | lparen =>
          exact (ihS true s.adv [] (by simp)).bind (opened (by intro st; rw [hk]; rfl)) (fun s' xs h =>
            .ok (opener_ok hs (hashable_list h.2) (by intro st; rw [hk]; rfl) h.1))
        | lbracket =>
          exact (ihS false s.adv [] (by simp)).bind (opened (by intro st; rw [hk]; rfl)) (fun s' xs h =>
            .ok (opener_ok hs (hashable_vec h.2) (by intro st; rw [hk]; rfl) h.1))
        | lbrace =>
          exact (ihM s.adv [] (by simp)).bind (opened (by intro st; rw [hk]; rfl)) (fun s' xs h =>
            .ok (opener_ok hs (hashable_map h.2) (by intro st; rw [hk]; rfl) h.1))
        | rparen => exact .ok (closer (by rw [hk]; rfl) _)
        | rbrace => exact .ok (closer (by rw [hk]; rfl) _)
        | rbracket => exact .ok (closer (by rw [hk]; rfl) _)
    · simp only [parseSeq]
      have close : ∀ {t ts} {s' : PS}, s.toks = t :: ts → t.kind = .rparen ∨ t.kind = .rbracket → s'.toks = ts →
          CollOk .seq s s' := by
        intro t ts s' hs hc hs'
        refine ⟨by rw [hs, hs']; simp, ?_⟩
        intro st
        rw [hs, hs', verdict_cons]
        rcases hc with hc | hc <;> rw [hc] <;> rfl
      have cont : ∀ {t ts}, s.toks = t :: ts → isCloser t.kind = false →
          Good (parseNode L fuel s >>= fun p => match p.2 with
            | some x => parseSeq L fuel b p.1 (acc ++ [x])
            | none => parseSeq L fuel b p.1 acc)
          (fun s' xs => CollOk .seq s s' ∧ ∀ x ∈ xs, Hashable L x) (∀ st, verdict (.seq :: st) s.toks = .throws) := by
        intro t ts hs hc
        refine (ihN s).bind (fun h st => h _) (fun s1 r h => ?_)
        have hsome := h.some_of t ts hs hc
        cases r with
        | none => cases hsome
        | some x =>
          simp only
          refine (ihS b s1 (acc ++ [x]) ?_).mono (fun s2 xs h2 => ⟨⟨?_, ?_⟩, h2.2⟩) (fun h2 st => ?_)
          · intro y hy
            rcases List.mem_append.mp hy with hy | hy
            · exact hacc y hy
            · simp at hy; subst hy; exact h.hash _ rfl
          · have := h2.1.le; have := h.le; omega
          · intro st
            rw [h.track x rfl, ← h2.1.track st]; rfl
          · rw [h.track x rfl, ← h2 st]; rfl
      cases hk : s.kind with
      | none =>
        have hs := kind_none hk
        refine .ok ⟨⟨by rw [err_toks]; exact Nat.le_refl _, fun st => ?_⟩, hacc⟩
        rw [err_toks, hs]; exact verdict_seq_nil st
      | some k =>
        obtain ⟨t, ts, hs, htk⟩ := kind_some hk
        cases k with
        | rparen =>
          refine .ok ⟨close hs (Or.inl htk) ?_, hacc⟩
          cases b <;> simp [err_toks, hs]
        | rbracket =>
          refine .ok ⟨close hs (Or.inr htk) ?_, hacc⟩
          cases b <;> simp [err_toks, hs]
        | rbrace =>
          refine .throw (fun st => ?_)
          rw [hs, verdict_cons, htk]; rfl
        | _ => exact cont hs (by rw [htk]; rfl)
    · simp only [parseMap]
      have close : ∀ {t ts} {s' : PS}, s.toks = t :: ts → isCloser t.kind = true → s'.toks = ts → CollOk .key s s' := by
        intro t ts s' hs hc hs'
        refine ⟨by rw [hs, hs']; simp, ?_⟩
        intro st
        rw [hs, hs', verdict_cons]
        cases hk : t.kind <;> rw [hk] at hc <;> first | rfl | cases hc
      cases hk : s.kind with
      | none =>
        have hs := kind_none hk
        refine (ihM _ es hes).mono (fun s2 xs h2 => ⟨⟨?_, ?_⟩, h2.2⟩) (fun h2 st => ?_)
        · have := h2.1.le; rw [err_toks, err_toks] at this; exact this
        · intro st
          have := h2.1.track st; rw [err_toks, err_toks] at this; exact this
        · have := h2 st; rw [err_toks, err_toks] at this; exact this
      | some k =>
        obtain ⟨t, ts, hs, htk⟩ := kind_some hk
        have cont : isCloser t.kind = false →
            Good (parseNode L fuel s >>= fun p => match p.2 with
              | none => parseMap L fuel (p.1.err "failed to parse map key") es
              | some k =>
                match p.1.kind with
                | none =>
                  parseMap L fuel
                    ((p.1.err "Unexpected end of file while parsing map value").err "key not followed by value in map") es
                | some .rbrace => .throw fmtBrace
                | some .rparen => .throw fmtBrace
                | some _ => do
                  let p ← parseNode L fuel p.1
                  match p.2 with
                  | none => parseMap L fuel (p.1.err "key not followed by value in map") es
                  | some v => do
                    let _ ← Node.hash L k
                    parseMap L fuel (match findKey L es k with
                      | some _ => p.1.err "duplicate key discovered in map"
                      | none => p.1) (insertEntry L es (k, v)))
            (fun s' es => CollOk .key s s' ∧ ∀ e ∈ es, Hashable L e.1 ∧ Hashable L e.2)
            (∀ st, verdict (.key :: st) s.toks = .throws) := by
          intro hc
          refine (ihN s).bind (fun h st => h _) (fun s1 r h => ?_)
          have hsome := h.some_of t ts hs hc
          cases r with
          | none => cases hsome
          | some x =>
            simp only
            have htrack : ∀ st, verdict (.key :: st) s.toks = verdict (.val :: st) s1.toks :=
              fun st => h.track x rfl (.key :: st)
            have hle1 := h.le
            have errc : ∀ {t' ts'} {s' : PS}, s1.toks = t' :: ts' → t'.kind = .rbracket → s'.toks = ts' →
                Good (parseMap L fuel s' es) (fun s' es => CollOk .key s s' ∧ ∀ e ∈ es, Hashable L e.1 ∧ Hashable L e.2)
                  (∀ st, verdict (.key :: st) s.toks = .throws) := by
              intro t' ts' s' hs1 hc' hs'
              refine (ihM s' es hes).mono (fun s2 xs h2 => ⟨⟨?_, ?_⟩, h2.2⟩) (fun h2 st => ?_)
              · have := h2.1.le; rw [hs'] at this; rw [hs1] at hle1; simp at hle1; omega
              · intro st
                rw [htrack, hs1, verdict_cons, ← h2.1.track st, hs', hc']; rfl
              · rw [htrack, hs1, verdict_cons, ← h2 st, hs', hc']; rfl
            cases hk1 : s1.kind with
            | none =>
              have hs1 := kind_none hk1
              refine (ihM _ es hes).mono (fun s2 xs h2 => ⟨⟨?_, ?_⟩, h2.2⟩) (fun h2 st => ?_)
              · have := h2.1.le; rw [err_toks, err_toks] at this; omega
              · intro st
                rw [htrack, ← h2.1.track st, err_toks, err_toks, hs1, verdict_key_nil, verdict_val_nil]
              · rw [htrack, ← h2 st, err_toks, err_toks, hs1, verdict_key_nil, verdict_val_nil]
            | some k1 =>
              obtain ⟨t1, ts1, hs1, htk1⟩ := kind_some hk1
              have contv : (k1 = .rbracket ∨ isCloser k1 = false) → Good (parseNode L fuel s1 >>= fun p => match p.2 with
                  | none => parseMap L fuel (p.1.err "key not followed by value in map") es
                  | some v => do
                    let _ ← Node.hash L x
                    parseMap L fuel (match findKey L es x with
                      | some _ => p.1.err "duplicate key discovered in map"
                      | none => p.1) (insertEntry L es (x, v)))
                  (fun s' es => CollOk .key s s' ∧ ∀ e ∈ es, Hashable L e.1 ∧ Hashable L e.2)
                  (∀ st, verdict (.key :: st) s.toks = .throws) := by
                intro hk1'
                refine (ihN s1).bind (fun h st => by rw [htrack]; exact h _) (fun s2 r h2 => ?_)
                have hle2 := h2.le
                cases r with
                | none =>
                  obtain ⟨hc', hs2⟩ := h2.trackNone rfl _ _ hs1
                  refine errc hs1 ?_ (by rw [err_toks]; exact hs2)
                  rcases hk1' with e | e
                  · rw [htk1, e]
                  · rw [htk1, e] at hc'; cases hc'
                | some v =>
                  simp only
                  obtain ⟨hx, hhx⟩ := h.hash x rfl
                  rw [hhx]
                  simp only [Outcome.ok_bind]
                  have htoks : (match findKey L es x with
                      | some _ => s2.err "duplicate key discovered in map"
                      | none => s2).toks = s2.toks := by
                    split
                    · exact err_toks _ _
                    · rfl
                  refine (ihM _ _ (insert_hashable hL hes ⟨⟨hx, hhx⟩, h2.hash v rfl⟩)).mono
                    (fun s3 xs h3 => ⟨⟨?_, ?_⟩, h3.2⟩) (fun h3 st => ?_)
                  · have := h3.1.le; rw [htoks] at this; omega
                  · intro st
                    rw [htrack, h2.track v rfl, ← h3.1.track st, htoks]; rfl
                  · rw [htrack, h2.track v rfl, ← h3 st, htoks]; rfl
              cases k1 with
              | rbrace => exact .throw (fun st => by rw [htrack, hs1, verdict_cons, htk1]; rfl)
              | rparen => exact .throw (fun st => by rw [htrack, hs1, verdict_cons, htk1]; rfl)
              | rbracket => exact contv (Or.inl rfl)
              | _ => exact contv (Or.inr rfl)
        cases k with
        | rbrace => exact .ok ⟨close hs (by rw [htk]; rfl) (by rw [adv_toks, hs]; rfl), hes⟩
        | rparen => exact .ok ⟨close hs (by rw [htk]; rfl) (by rw [adv_toks, err_toks, hs]; rfl), hes⟩
        | rbracket => exact .ok ⟨close hs (by rw [htk]; rfl) (by rw [adv_toks, err_toks, hs]; rfl), hes⟩
        | _ => exact cont (by rw [htk]; rfl)

end Ab.Edn
