import Verif.Proof.Vec3
/-! Programs over persistent vectors. -/
namespace Ab.PVec
open Spec

variable {T : Type}

/-- A vector value holds `l`. -/
structure VOk (d : T) (h : Heap T) (L : Nat → Nat) (v : V) (l : List T) : Prop where
  size  : v.size = l.length
  lev   : L v.root = v.level
  rep   : Rep d h v.level v.root l
  shape : v.level = 0 ∨ 4 ^ v.level < l.length

/-- What is left of a program's state when a reference to `w` is about to be counted. -/
structure Pre (d : T) (N : Nat) (h : Heap T) (f : Nat → Option V) (e : Env T) (L : Nat → Nat) (Z : Nat → Prop) : Prop where
  inv  : Inv h L (fun x => (varRefs f N x : Int)) Z
  high : ∀ k, N ≤ k → f k = none
  absent : ∀ k, f k = none ↔ e k = none
  vars : ∀ k v l, f k = some v → e k = some l → VOk d h L v l

/-- The invariant of a program's state. -/
def SInv (d : T) (N : Nat) (s : St T) (e : Env T) : Prop := ∃ L, Pre d N s.heap s.var e L (fun _ => False)

/-- References one variable holds. -/
def held (w : Option V) (x : Nat) : Nat := match w with | some v => if v.root = x then 1 else 0 | none => 0

theorem varRefs_eq (f : Nat → Option V) (N x : Nat) : varRefs f N x = sumTo (fun k => held (f k) x) N := rfl

theorem varRefs_set (f : Nat → Option V) {N i : Nat} (hi : i < N) (w : Option V) (x : Nat) :
    varRefs (setVar f i w) N x + held (f i) x = varRefs f N x + held w x := by
  have := sumTo_change (f := fun k => held (setVar f i w k) x) (g := fun k => held (f k) x) (a := i) (n := N) hi
    (by intro b hb; simp only [setVar, if_neg hb])
  simp only [setVar, if_pos] at this
  exact this

theorem held_some (v : V) (x : Nat) : (held (some v) x : Int) = ind (some v.root) x := by
  simp only [held, ind, Option.some.injEq]; split <;> rfl

theorem VOk.mono {d : T} {h h' : Heap T} {L L' : Nat → Nat} {v : V} {l : List T} (ho : VOk d h L v l)
    (hk : Keep h h') (hL : L' v.root = L v.root) : VOk d h' L' v l :=
  ⟨ho.size, by rw [hL]; exact ho.lev, ho.rep.keep hk, ho.shape⟩

theorem Pre.lt {d : T} {N h f e L Z} (hp : Pre d N h f e L Z) {k : Nat} {v : V} (hv : f k = some v) : v.root < h.next := by
  cases he : e k with
  | none => rw [(hp.absent k).2 he] at hv; cases hv
  | some l =>
    obtain ⟨n, hn⟩ := (hp.vars k v l hv he).rep.live
    exact hp.inv.lt hn

/-- The heap grew. -/
theorem Pre.grow {d : T} {N : Nat} {h h' : Heap T} {f e L L' Z Z'} (hp : Pre d N h f e L Z)
    (hi : Inv h' L' (fun x => (varRefs f N x : Int)) Z') (hk : Keep h h') (hL : ∀ x, x < h.next → L' x = L x) :
    Pre d N h' f e L' Z' :=
  ⟨hi, hp.high, hp.absent, fun k v l hv he => (hp.vars k v l hv he).mono hk (hL _ (hp.lt hv))⟩

/-- A new variable. -/
theorem Pre.add {d : T} {N : Nat} {h : Heap T} {f e L} {w : V} {l : List T} {i : Nat}
    (hp : Pre d N h f e L (fun x => x = w.root)) (hN : i < N) (hf : f i = none) (hw : VOk d h L w l) :
    ∃ h', h.inc w.root = .ok h' ∧ SInv d N ⟨h', setVar f i (some w)⟩ (e.put i (some l)) := by
  obtain ⟨n, hn⟩ := hw.rep.live
  obtain ⟨h', e1, hi, hk, _, _⟩ := inc_spec (E' := fun x => (varRefs (setVar f i (some w)) N x : Int))
    (Z' := fun _ => False) hp.inv hn (fun x => by
      have h1 := varRefs_set f hN (some w) x
      rw [hf] at h1
      have h2 := held_some w x
      have h3 : held none x = 0 := rfl
      omega) (fun x hx h => hx h)
  refine ⟨h', e1, L, hi, ?_, ?_, ?_⟩
  · intro k hk; show setVar f i (some w) k = none
    simp only [setVar, if_neg (show k ≠ i by omega)]; exact hp.high k hk
  · intro k
    simp only [setVar, Env.put]
    by_cases hki : k = i
    · rw [if_pos hki, if_pos hki]; simp
    · rw [if_neg hki, if_neg hki]; exact hp.absent k
  · intro k v m hv hm
    simp only [setVar] at hv
    simp only [Env.put] at hm
    by_cases hki : k = i
    · rw [if_pos hki] at hv hm; cases hv; cases hm; exact hw.mono hk rfl
    · rw [if_neg hki] at hv hm; exact (hp.vars k v m hv hm).mono hk rfl

theorem SInv.get {d : T} {N : Nat} {s : St T} {e : Env T} (hs : SInv d N s e) {i : Nat} {l : List T} (he : e i = some l) :
    ∃ v, s.var i = some v ∧ i < N := by
  obtain ⟨L, hp⟩ := hs
  cases hv : s.var i with
  | none => rw [(hp.absent i).1 hv] at he; cases he
  | some v =>
    refine ⟨v, rfl, ?_⟩
    rcases Nat.lt_or_ge i N with h | h
    · exact h
    · rw [hp.high i h] at hv; cases hv

/-- A variable's life ends. -/
theorem SInv.drop {d : T} {N : Nat} {s : St T} {e : Env T} (hs : SInv d N s e) {i : Nat} {l : List T} {v : V}
    (he : e i = some l) (hv : s.var i = some v) :
    ∃ h', release v.level s.heap (some v.root) = .ok h' ∧ SInv d N ⟨h', setVar s.var i none⟩ (e.put i none) := by
  obtain ⟨_, _, hN⟩ := hs.get he
  obtain ⟨L, hp⟩ := hs
  have ho := hp.vars i v l hv he
  have hset : ∀ x, (varRefs (setVar s.var i none) N x : Int) = varRefs s.var N x - ind (some v.root) x := by
    intro x
    have h1 := varRefs_set s.var hN none x
    rw [hv] at h1
    have h2 := held_some v x
    have h3 : held none x = 0 := rfl
    omega
  have hone : ∀ k w, s.var k = some w → 1 ≤ varRefs s.var N w.root := by
    intro k w hw
    have hk : k < N := by
      rcases Nat.lt_or_ge k N with h | h
      · exact h
      · rw [hp.high k h] at hw; cases hw
    have := sumTo_ge (f := fun k => held (s.var k) w.root) hk
    simp only [hw] at this
    have h2 : held (some w) w.root = 1 := if_pos rfl
    rw [varRefs_eq]; omega
  obtain ⟨h', e1, r⟩ := release_spec v.level s.heap (some v.root) _ _ hp.inv (by
    intro a ha; cases ha
    refine ⟨ho.lev, ?_⟩
    have := hp.inv.count v.root
    have := hone i v hv
    omega) (fun x _ => by omega)
  have hinv : Inv h' L (fun x => (varRefs (setVar s.var i none) N x : Int)) (fun _ => False) := r.inv.congrE hset
  refine ⟨h', e1, L, hinv, ?_, ?_, ?_⟩
  · intro k hk; show setVar s.var i none k = none
    simp only [setVar]; split
    · rfl
    · exact hp.high k hk
  · intro k
    simp only [setVar, Env.put]
    by_cases hki : k = i
    · rw [if_pos hki, if_pos hki]; simp
    · rw [if_neg hki, if_neg hki]; exact hp.absent k
  · intro k w m hw hm
    simp only [setVar] at hw
    simp only [Env.put] at hm
    by_cases hki : k = i
    · rw [if_pos hki] at hw; cases hw
    · rw [if_neg hki] at hw hm
      have hk := hp.vars k w m hw hm
      refine ⟨hk.size, hk.lev, hk.rep.survive r.sub hinv (fun x => by omega) ?_, hk.shape⟩
      have hkN : k < N := by
        rcases Nat.lt_or_ge k N with h | h
        · exact h
        · rw [hp.high k h] at hw; cases hw
      have h1 := sumTo_ge (f := fun k => held (setVar s.var i none k) w.root) hkN
      simp only [setVar, if_neg hki, hw] at h1
      have h2 : held (some w) w.root = 1 := if_pos rfl
      have h3 := hinv.count w.root
      simp only [varRefs_eq] at h3
      simp only [setVar] at h3
      omega

theorem Heap.new_snd (h : Heap T) (b : Body T) : (h.new b).2 = h.next := rfl

theorem lev_bound {d : T} {h : Heap T} {L} {v : V} {l : List T} (ho : VOk d h L v l) (hl : l.length ≤ 2 ^ 30) :
    v.level ≤ 14 := by
  rcases Nat.lt_or_ge v.level 15 with h1 | h1
  · omega
  · rcases ho.shape with h2 | h2
    · omega
    · have : 4 ^ 15 ≤ 4 ^ v.level := Nat.pow_le_pow_right (by decide) h1
      have : (4 : Nat) ^ 15 = 2 ^ 30 := by decide
      omega

theorem capacity_spec {v : V} (h : v.level ≤ 14) : capacity v = .ok (4 ^ (v.level + 1)) := by
  unfold capacity
  simp only
  rw [if_pos (by omega), Nat.mul_comm, Nat.pow_mul]

/-- `cons` before the last count. -/
theorem cons_spec {d : T} {N : Nat} {h : Heap T} {f e L} (hp : Pre d N h f e L (fun _ => False)) {v : V} {l : List T} (x : T)
    (ho : VOk d h L v l) (hl : l.length ≤ 2 ^ 30) :
    ∃ h' w L', cons d h v x = (do let g ← h'.inc w.root; pure (g, w)) ∧
      Pre d N h' f e L' (fun y => y = w.root) ∧ VOk d h' L' w (l ++ [x]) ∧ Keep h h' := by
  have hlev := lev_bound ho hl
  have hlen := ho.rep.len
  obtain ⟨nr, hnr⟩ := ho.rep.live
  have hrlt := hp.inv.lt hnr
  by_cases hc : v.size < 4 ^ (v.level + 1)
  · obtain ⟨h', r, L', e1, u⟩ := update_spec d x v.level h L _ _ (some v.root) v.size l hp.inv (fun y _ => by omega)
      ⟨ho.lev, ho.rep⟩ (by rw [← ho.size]; exact hc) (by rw [Nat.mod_eq_of_lt hc]; exact ho.size)
    refine ⟨h', ⟨r, v.size + 1, v.level⟩, L', ?_, ?_, ?_, u.keep⟩
    · simp only [cons, capacity_spec hlev, Outcome.ok_bind, if_pos hc, e1]; rfl
    · exact hp.grow (u.inv.monoZ (fun y h => by rcases h with h | h; exact h.elim; exact h)) u.keep u.same
    · refine ⟨by simp [ho.size], u.lev, u.rep, ?_⟩
      rcases ho.shape with h1 | h1
      · exact Or.inl h1
      · right; simp; omega
  · have hsz : v.size = 4 ^ (v.level + 1) := by have := ho.size; omega
    have hll : l.length = 4 ^ (v.level + 1) := by rw [← ho.size, hsz]
    have hpp := pow_pos4 (v.level + 1)
    -- the new root
    have hroot2 : ∀ y, ((slots (.branch (upd (fun _ => none) 0 (some v.root)) : Body T) y : Nat) : Int) = ind (some v.root) y := by
      intro y; rw [slots_branch]; simp [upd, ind]
    have hi1 : Inv (h.new (.branch (upd (fun _ => none) 0 (some v.root)))).1 (setL L h.next (v.level + 1))
        (fun y => (varRefs f N y : Int) - ind (some v.root) y) (fun y => y = h.next) := by
      refine hp.inv.new (.branch (upd (fun _ => none) 0 (some v.root))) (v.level + 1) ⟨by rw [setL_self]; omega, fun j b hj => ?_⟩ (fun y => by rw [hroot2])
        (fun y h => h.elim) rfl
      unfold upd at hj
      split at hj
      · cases hj; exact ⟨by omega, by rw [setL_self, setL_lt _ _ hrlt, ho.lev]⟩
      · cases hj
    have k1 := Keep.new hp.inv (.branch (upd (fun _ => none) 0 (some v.root)))
    have hcell : (h.new (.branch (upd (fun _ => none) 0 (some v.root)))).1.cell h.next =
        some ⟨0, .branch (upd (fun _ => none) 0 (some v.root))⟩ := by rw [new_cell, if_pos rfl]
    have nn1 : (h.new (.branch (upd (fun _ => none) 0 (some v.root)))).1.next = h.next + 1 := rfl
    have hcons : cons d h v x = (do
        let g ← (h.new (.branch (upd (fun _ => none) 0 (some v.root)))).1.inc v.root
        let c ← g.children h.next
        if c (subindex (v.level + 1) v.size) ≠ none then .trap "root2->children[si] == nullptr"
        else do
          let (g, n) ← update d v.level g (c (subindex (v.level + 1) v.size)) v.size x
          let c ← g.children h.next
          let g ← g.setBody h.next (.branch (upd c (subindex (v.level + 1) v.size) (some n)))
          let g ← g.inc n
          ofRoot g h.next (v.size + 1) (v.level + 1)) := by
      simp only [cons, capacity_spec hlev, Outcome.ok_bind, if_neg hc]; rfl
    rw [hcons]
    have hsi : subindex (v.level + 1) v.size = 1 := by
      apply Fin.ext; show v.size / 4 ^ (v.level + 1) % 4 = 1
      rw [hsz, Nat.div_self hpp]
    rw [hsi]
    generalize (h.new (.branch (upd (fun _ => none) 0 (some v.root)))).1 = g1 at hi1 k1 hcell nn1 ⊢
    obtain ⟨nr1, hnr1, _⟩ := k1.2 _ _ hnr
    obtain ⟨g2, e2, hi2, k2, _, nn2⟩ := inc_spec (E' := fun y => (varRefs f N y : Int)) (Z' := fun y => y = h.next) hi1 hnr1
      (fun y => by omega) (fun y _ h => h)
    obtain ⟨n2, hc2, hb2⟩ := k2.2 _ _ hcell
    have hch2 := children_spec hc2 hb2
    rw [e2]; simp only [Outcome.ok_bind]
    rw [hch2]; simp only [Outcome.ok_bind]
    have hupd : upd (fun _ => (none : Option Nat)) 0 (some v.root) 1 = none := rfl
    rw [hupd, if_neg (by simp)]
    obtain ⟨g3, r, L', e3, u⟩ := update_spec d x v.level g2 _ _ _ none v.size [] hi2 (fun y _ => by omega)
      rfl hpp (by rw [hsz, Nat.mod_self]; rfl)
    rw [e3]; simp only [Outcome.ok_bind]
    obtain ⟨n3, hc3, hb3⟩ := u.keep.2 _ _ hc2
    have hb3' : n3.body = .branch (upd (fun _ => none) 0 (some v.root)) := by rw [hb3, hb2]
    rw [children_spec hc3 hb3']; simp only [Outcome.ok_bind]
    obtain ⟨nn, hnn⟩ := u.rep.live
    have hrlt3 := u.inv.lt hnn
    have hlt3 := u.inv.lt hc3
    have hrne : r ≠ h.next := by have := u.fresh; omega
    have hLn : L' h.next = v.level + 1 := by rw [u.same _ (by omega), setL_self]
    have hLr : L' v.root = v.level := by rw [u.same _ (by omega), setL_lt _ _ hrlt, ho.lev]
    generalize hcc : upd (upd (fun _ => none) 0 (some v.root)) 1 (some r) = cc
    have hcc0 : cc 0 = some v.root := by rw [← hcc]; rfl
    have hcc1 : cc 1 = some r := by rw [← hcc]; rfl
    have hcc2 : cc 2 = none := by rw [← hcc]; rfl
    have hcc3 : cc 3 = none := by rw [← hcc]; rfl
    have hi4 : Inv (g3.put h.next (some { n3 with body := .branch cc })) L' (fun y => (varRefs f N y : Int) - ind (some r) y)
        (fun y => y = h.next ∨ y = r) := by
      refine u.inv.put hc3 { n3 with body := .branch cc } ⟨by omega, ?_⟩ ?_ (fun y _ h => h) (fun h0 => Or.inl rfl)
      · intro j b hj
        have h4 : j = 0 ∨ j = 1 ∨ j = 2 ∨ j = 3 := by omega
        rcases h4 with e | e | e | e <;> subst e
        · rw [hcc0] at hj; cases hj; exact ⟨by omega, by omega⟩
        · rw [hcc1] at hj; cases hj; exact ⟨hrlt3, by rw [u.lev, hLn]⟩
        · rw [hcc2] at hj; cases hj
        · rw [hcc3] at hj; cases hj
      · intro y
        simp only [hb3', hroot2]
        rw [slots_branch, hcc0, hcc1, hcc2, hcc3]
        have hz : (if y = h.next then (n3.rc : Int) - n3.rc else 0) = 0 := by split <;> omega
        rw [hz]
        have : ind none y = 0 := rfl
        omega
    have hset : g3.setBody h.next (.branch cc) = .ok (g3.put h.next (some { n3 with body := .branch cc })) := by
      unfold Heap.setBody Heap.node; rw [hc3]; rfl
    have hcr : (g3.put h.next (some { n3 with body := .branch cc })).cell r = some nn := by
      rw [put_cell, if_neg hrne]; exact hnn
    have hcn : (g3.put h.next (some { n3 with body := .branch cc })).cell h.next = some { n3 with body := .branch cc } := by
      rw [put_cell, if_pos rfl]
    have k4 : ∀ a m, a ≠ h.next → g3.cell a = some m → (g3.put h.next (some { n3 with body := .branch cc })).cell a = some m := by
      intro a m ha hm; rw [put_cell, if_neg ha]; exact hm
    have nn4 : (g3.put h.next (some { n3 with body := .branch cc })).next = g3.next := rfl
    rw [hset]; simp only [Outcome.ok_bind]
    generalize g3.put h.next (some { n3 with body := .branch cc }) = g4 at *
    obtain ⟨g5, e5, hi5, k5, _, nn5⟩ := inc_spec (E' := fun y => (varRefs f N y : Int)) (Z' := fun y => y = h.next) hi4 hcr
      (fun y => by omega) (fun y hy h => by rcases h with h | h; exact h; exact absurd h hy)
    rw [e5]; simp only [Outcome.ok_bind]
    have kk : Keep h g5 := by
      refine ⟨by have := u.keep.1; omega, fun a n ha => ?_⟩
      have := hp.inv.lt ha
      obtain ⟨m, hm, em⟩ := (k1.trans (k2.trans u.keep)).2 a n ha
      obtain ⟨m', hm', em'⟩ := k5.2 a m (k4 a m (by omega) hm)
      exact ⟨m', hm', em'.trans em⟩
    refine ⟨g5, ⟨h.next, v.size + 1, v.level + 1⟩, L', rfl, ?_, ?_, kk⟩
    · exact hp.grow hi5 kk (fun y hy => by rw [u.same y (by omega), setL_lt _ _ hy])
    · refine ⟨by simp [ho.size], hLn, ?_, Or.inr (by simp; omega)⟩
      obtain ⟨n5, hn5, hb5⟩ := k5.2 _ _ hcn
      have hpe : 4 ^ (v.level + 2) = 4 * 4 ^ (v.level + 1) := by rw [Nat.pow_succ 4 (v.level + 1), Nat.mul_comm]
      refine ⟨by rw [hpe]; simp; omega, n5, cc, hn5, hb5, fun j => ?_⟩
      generalize 4 ^ (v.level + 1) = B at *
      have h4 : j = 0 ∨ j = 1 ∨ j = 2 ∨ j = 3 := by omega
      rcases h4 with e | e | e | e <;> subst e
      · have : chunk B (0 : Fin 4).1 (l ++ [x]) = l := by
          rw [chunk_snoc_lt x (by show 0 * B + B ≤ _; omega)]
          unfold chunk; simp [← hll]
        rw [this]
        refine ⟨fun h => by rw [h] at hll; simp at hll; omega, fun _ => ⟨v.root, hcc0, ho.rep.keep kk⟩⟩
      · have : chunk B (1 : Fin 4).1 (l ++ [x]) = [x] := by
          rw [chunk_snoc_eq x (by show 1 * B ≤ _; omega) (by show _ < 1 * B + B; omega)]
          unfold chunk; simp [hll]
        rw [this]
        refine ⟨fun h => by simp at h, fun _ => ⟨r, hcc1, ?_⟩⟩
        refine (Rep.low u.inv (k := v.level) ?_ u.lev (Nat.le_refl _) u.rep).keep k5
        intro a n ha hla
        exact ⟨n, k4 a n (by intro e; rw [e, hLn] at hla; omega) ha, rfl⟩
      · have : chunk B (2 : Fin 4).1 (l ++ [x]) = [] := by
          apply List.eq_nil_of_length_eq_zero
          rw [chunk_length]; simp; omega
        rw [this]; exact ⟨fun _ => hcc2, fun h => absurd rfl h⟩
      · have : chunk B (3 : Fin 4).1 (l ++ [x]) = [] := by
          apply List.eq_nil_of_length_eq_zero
          rw [chunk_length]; simp; omega
        rw [this]; exact ⟨fun _ => hcc3, fun h => absurd rfl h⟩

/-- One operation. -/
theorem step_spec {d : T} {N : Nat} {s : St T} {e e' : Env T} (hs : SInv d N s e) {o : Op T}
    (hm : meant e o = some e') (hb : ¬ Bad e o) (hN : below N o) :
    ∃ s', step d s o = .ok s' ∧ SInv d N s' e' := by
  cases o with
  | new i =>
    simp only [meant] at hm
    cases he : e i with
    | some l => rw [he] at hm; cases hm
    | none =>
      rw [he] at hm; cases hm
      obtain ⟨L, hp⟩ := hs
      have hf := (hp.absent i).2 he
      have hi1 : Inv (s.heap.new (.leaf (fun _ => d))).1 (setL L s.heap.next 0) (fun x => (varRefs s.var N x : Int))
          (fun y => y = s.heap.next) :=
        hp.inv.new (.leaf (fun _ => d)) 0 (setL_self _ _ _) (fun y => by simp [slots]) (fun y h => h.elim) rfl
      have hp1 := hp.grow hi1 (Keep.new hp.inv _) (fun y hy => setL_lt _ _ hy)
      obtain ⟨h', e1, r⟩ := Pre.add (w := ⟨s.heap.next, 0, 0⟩) (l := []) hp1 hN hf
        ⟨rfl, setL_self _ _ _, ⟨by simp, ⟨0, .leaf (fun _ => d)⟩, fun _ => d, by rw [new_cell, if_pos rfl], rfl,
          fun k => by simp⟩, Or.inl rfl⟩
      refine ⟨_, ?_, r⟩
      simp only [step, St.fresh, hf, Outcome.ok_bind, mk]
      have e1' : (s.heap.new (.leaf (fun _ => d))).1.inc (s.heap.new (.leaf (fun _ => d))).2 = .ok h' := e1
      simp only [e1', Outcome.ok_bind]; rfl
  | cons i j x =>
    simp only [meant] at hm
    cases he : e i with
    | some l => rw [he] at hm; simp at hm
    | none =>
      cases hj : e j with
      | none => rw [he, hj] at hm; simp at hm
      | some l =>
        rw [he, hj] at hm; cases hm
        obtain ⟨w, hw, _⟩ := hs.get hj
        obtain ⟨L, hp⟩ := hs
        have hf := (hp.absent i).2 he
        have hl : l.length ≤ 2 ^ 30 := by
          rcases Nat.lt_or_ge (2 ^ 30) l.length with h | h
          · exact absurd ⟨l, hj, h⟩ hb
          · exact h
        obtain ⟨h', v, L', e1, hp1, ho, _⟩ := cons_spec hp x (hp.vars j w l hw hj) hl
        obtain ⟨h2, e2, r⟩ := hp1.add hN.1 hf ho
        refine ⟨_, ?_, r⟩
        simp only [step, St.fresh, hf, Outcome.ok_bind, St.get, hw, e1, e2]; rfl
  | assign i j =>
    simp only [meant] at hm
    cases he : e i with
    | none => rw [he] at hm; simp at hm
    | some l0 =>
      cases hj : e j with
      | none => rw [he, hj] at hm; simp at hm
      | some l =>
        rw [he, hj] at hm; cases hm
        have hij : i ≠ j := hb
        obtain ⟨v, hv, _⟩ := hs.get he
        obtain ⟨w, hw, _⟩ := hs.get hj
        obtain ⟨h', e1, hs'⟩ := hs.drop he hv
        obtain ⟨L, hp⟩ := hs'
        have hwj : setVar s.var i none j = some w := by simp only [setVar, if_neg (fun e => hij e.symm : j ≠ i)]; exact hw
        have hlj : e.put i none j = some l := by simp only [Env.put, if_neg (fun e => hij e.symm : j ≠ i)]; exact hj
        have hp' : Pre d N h' (setVar s.var i none) (e.put i none) L (fun x => x = w.root) :=
          ⟨hp.inv.monoZ (fun _ h => h.elim), hp.high, hp.absent, hp.vars⟩
        obtain ⟨h2, e2, r⟩ := hp'.add hN.1 (by simp [setVar]) (hp.vars j w l hwj hlj)
        have q1 : setVar (setVar s.var i none) i (some w) = setVar s.var i (some w) := by
          funext k; simp only [setVar]; split <;> rfl
        have q2 : (e.put i none).put i (some l) = e.put i (some l) := by
          funext k; simp only [Env.put]; split <;> rfl
        rw [q1, q2] at r
        refine ⟨_, ?_, r⟩
        simp only [step, St.get, hv, Outcome.ok_bind, e1, hw, e2]; rfl
  | drop i =>
    simp only [meant] at hm
    cases he : e i with
    | none => rw [he] at hm; cases hm
    | some l0 =>
      rw [he] at hm; cases hm
      obtain ⟨v, hv, _⟩ := hs.get he
      obtain ⟨h', e1, hs'⟩ := hs.drop he hv
      refine ⟨_, ?_, hs'⟩
      simp only [step, St.get, hv, Outcome.ok_bind, e1]; rfl

end Ab.PVec
