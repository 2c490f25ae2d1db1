import Verif.Model.MaybeNull
/-! C117: optional pointers and nested optional values. -/
namespace Ab.MaybeNull

/-! ### Specification -/

/-- The type of a value. -/
def typeOf : Val → Ty
  | .obj _ => .obj
  | .ptr _ => .ptr
  | .flag _ => .maybe .obj
  | .wrap v => .maybe (typeOf v)

/-- A value of its type: a `Maybe` of the plain type has a flag. -/
def WF : Val → Prop
  | .wrap v => typeOf v ≠ .obj ∧ WF v
  | _ => True

/-- What a value comes down to: a plain object or a pointer that is not null; `none` is absence, on whichever
level. -/
def payload : Val → Option Nat
  | .obj n => some n
  | .ptr 0 => none
  | .ptr (n + 1) => some (n + 1)
  | .flag o => o
  | .wrap v => payload v

/-- What is left in a value of the type that was moved out of: only plain objects change. -/
def leftBy (moved : Nat → Nat) : Ty → Nat → Nat
  | .obj, n => moved n
  | .ptr, n => n
  | .maybe t, n => leftBy moved t n

/-- What is under all the `Maybe`s. -/
def base : Ty → Ty
  | .maybe t => base t
  | t => t

/-- What each variable in use is meant to be: a `Maybe` of the type, holding what, if anything. -/
abbrev Env := Nat → Option (Ty × Option Nat)

def Env.put (e : Env) (i : Nat) (x : Option (Ty × Option Nat)) : Env := fun k => if k = i then x else e k

/-- What each operation is meant to do; `none` when it does not type-check, uses a variable that is not there,
introduces one that is, or assigns through a `Maybe` that holds nothing. -/
def meant (moved : Nat → Nat) (e : Env) : Op → Option Env
  | .nothing i t => if e i = none then some (e.put i (some (t, none))) else none
  | .value i v => if e i = none then some (e.put i (some (typeOf v, payload v))) else none
  | .copy i j t => match e i, e j with
    | none, some (u, x) => if t = u then some (e.put i (some (t, x))) else none
    | _, _ => none
  | .move i j t => match e i, e j with
    | none, some (u, x) =>
      if t = u then some ((e.put j (some (t, x.map (leftBy moved t)))).put i (some (t, x))) else none
    | _, _ => none
  | .assign i j => match e i, e j with
    | some (t, _), some (u, x) => if t = u then some (e.put i (some (t, x))) else none
    | _, _ => none
  | .moveAssign i j => match e i, e j with
    | some (t, _), some (u, x) =>
      if t = u then some ((e.put j (some (t, x.map (leftBy moved t)))).put i (some (t, x))) else none
    | _, _ => none
  | .store i v => match e i with
    | some (t, some _) => if t = typeOf v then some (e.put i (some (t, payload v))) else none
    | _ => none
  | .drop i => match e i with
    | some _ => some (e.put i none)
    | none => none

/-- Assigning variable `j` to variable `i` goes wrong: `i` is `j` and holds a plain object, or `j` holds nothing
and `i` something. -/
def BadAssign (e : Env) (i j : Nat) : Prop :=
  (i = j ∧ ∃ t n, e i = some (t, some n) ∧ base t = .obj) ∨
  ((∃ t, e j = some (t, none)) ∧ ∃ t n, e i = some (t, some n))

/-- The cases the property is false for. -/
def Bad (e : Env) : Op → Prop
  | .assign i j => BadAssign e i j
  | .moveAssign i j => BadAssign e i j
  | .store _ v => payload v = none ∧ ∃ t, typeOf v = .maybe t
  | _ => False

/-- The values a program mentions are values of their types. -/
def Op.wf : Op → Prop
  | .value _ v => WF v
  | .store _ v => WF v
  | _ => True

/-- A program that means something and avoids those cases, and the state it means to reach. -/
inductive Fine (moved : Nat → Nat) : Env → List Op → Env → Prop
  | nil (e) : Fine moved e [] e
  | cons {e e' e'' o l} : o.wf → meant moved e o = some e' → ¬ Bad e o → Fine moved e' l e'' →
      Fine moved e (o :: l) e''

/-- A variable is as meant: of its type; it says it holds something exactly if it is meant to; and what it comes
down to is what it is meant to hold. -/
def IsMeant : Option Val → Option (Ty × Option Nat) → Prop
  | none, none => True
  | some m, some (t, x) => WF m ∧ typeOf m = .maybe t ∧ isJust m = x.isSome ∧ payload m = x
  | _, _ => False

/-! ### Proofs -/

theorem notNull_eq : ∀ v : Val, notNull v = (payload v).isSome
  | .obj _ => rfl
  | .ptr 0 => rfl
  | .ptr (_ + 1) => rfl
  | .flag _ => rfl
  | .wrap v => notNull_eq v

theorem isJust_eq {m : Val} {t : Ty} (h : typeOf m = .maybe t) : isJust m = (payload m).isSome := by
  cases m with
  | obj n => cases h
  | ptr a => cases h
  | flag o => rfl
  | wrap v => exact notNull_eq v

theorem null_spec : ∀ t : Ty, t ≠ .obj → WF (null t) ∧ typeOf (null t) = t ∧ payload (null t) = none
  | .obj, h => absurd rfl h
  | .ptr, _ => ⟨trivial, rfl, rfl⟩
  | .maybe .obj, _ => ⟨trivial, rfl, rfl⟩
  | .maybe .ptr, _ => ⟨⟨by decide, trivial⟩, rfl, rfl⟩
  | .maybe (.maybe t), _ => by
    obtain ⟨h1, h2, h3⟩ := null_spec (.maybe t) (by simp)
    show WF (.wrap (null (.maybe t))) ∧ typeOf (.wrap (null (.maybe t))) = _ ∧ payload (.wrap (null (.maybe t))) = none
    exact ⟨⟨by rw [h2]; simp, h1⟩, by show Ty.maybe _ = _; rw [h2], h3⟩

theorem nothing_spec (t : Ty) : WF (nothing t) ∧ typeOf (nothing t) = .maybe t ∧ payload (nothing t) = none := by
  cases t with
  | obj => exact ⟨trivial, rfl, rfl⟩
  | ptr => exact ⟨⟨by decide, trivial⟩, rfl, rfl⟩
  | maybe t =>
    obtain ⟨h1, h2, h3⟩ := null_spec (.maybe t) (by simp)
    exact ⟨⟨by rw [h2]; simp, h1⟩, by show Ty.maybe _ = _; rw [h2], h3⟩

theorem value_spec {v : Val} (h : WF v) : WF (value v) ∧ typeOf (value v) = .maybe (typeOf v) ∧ payload (value v) = payload v := by
  cases v with
  | obj n => exact ⟨trivial, rfl, rfl⟩
  | ptr a => exact ⟨⟨by simp [typeOf], trivial⟩, rfl, rfl⟩
  | flag o => exact ⟨⟨by simp [typeOf], trivial⟩, rfl, rfl⟩
  | wrap v => exact ⟨⟨by simp [typeOf], h⟩, rfl, rfl⟩

/-- A `Maybe` that holds something was made from its value. -/
theorem get_spec {m : Val} {t : Ty} {n : Nat} (hw : WF m) (ht : typeOf m = .maybe t) (hp : payload m = some n) :
    ∃ v, get m = .ok v ∧ m = value v ∧ WF v ∧ typeOf v = t ∧ payload v = some n := by
  cases m with
  | obj n => cases ht
  | ptr a => cases ht
  | flag o =>
    simp only [payload] at hp
    subst hp
    injection ht with ht
    exact ⟨.obj n, rfl, rfl, trivial, ht, rfl⟩
  | wrap v =>
    injection ht with ht
    refine ⟨v, ?_, ?_, hw.2, ht, hp⟩
    · show (if notNull v then _ else _) = _
      have : payload v = some n := hp
      rw [notNull_eq, this]; rfl
    · cases v with
      | obj k => exact absurd rfl hw.1
      | ptr a => rfl
      | flag o => rfl
      | wrap v => rfl

theorem get_nothing {m : Val} {t : Ty} (ht : typeOf m = .maybe t) (hp : payload m = none) : (get m).isTrap = true := by
  cases m with
  | obj n => cases ht
  | ptr a => cases ht
  | flag o => simp only [payload] at hp; subst hp; rfl
  | wrap v =>
    show Outcome.isTrap (if notNull v then _ else _) = _
    have : payload v = none := hp
    rw [notNull_eq, this]; rfl

/-- Assigning what holds something. -/
theorem assign_some (moved : Nat → Nat) (mv same : Bool) : ∀ (v d : Val) (n : Nat), WF d → WF v → typeOf d = typeOf v →
    payload v = some n → (same = true → base (typeOf v) ≠ .obj) →
    ∃ d' v', assign moved mv same d v = .ok (d', v') ∧ WF d' ∧ WF v' ∧ typeOf d' = typeOf v ∧ typeOf v' = typeOf v ∧
      payload d' = some n ∧ payload v' = some (if mv then leftBy moved (typeOf v) n else n)
  | .obj k, d, n, hd, hv, ht, hp, hs => by
    cases d with
    | obj j =>
      injection hp with hp; subst hp
      refine ⟨_, _, rfl, trivial, trivial, rfl, rfl, rfl, ?_⟩
      cases mv <;> rfl
    | ptr a => cases ht
    | flag o => cases ht
    | wrap d => cases ht
  | .ptr a, d, n, hd, hv, ht, hp, hs => by
    cases d with
    | obj j => cases ht
    | ptr b =>
      refine ⟨_, _, rfl, trivial, trivial, rfl, rfl, hp, ?_⟩
      rw [hp]; cases mv <;> rfl
    | flag o => cases ht
    | wrap d => cases ht
  | .flag o, d, n, hd, hv, ht, hp, hs => by
    simp only [payload] at hp
    subst hp
    cases d with
    | obj j => cases ht
    | ptr b => cases ht
    | flag o =>
      cases same with
      | true => exact absurd rfl (hs rfl)
      | false =>
        refine ⟨_, _, rfl, trivial, trivial, rfl, rfl, rfl, ?_⟩
        cases mv <;> rfl
    | wrap d => exact absurd (by injection ht) hd.1
  | .wrap v, d, n, hd, hv, ht, hp, hs => by
    cases d with
    | obj j => cases ht
    | ptr b => cases ht
    | flag o => exact absurd (by injection ht with ht; exact ht.symm) hv.1
    | wrap d =>
      injection ht with ht
      obtain ⟨d', v', h1, h2, h3, h4, h5, h6, h7⟩ := assign_some moved mv same v d n hd.2 hv.2 ht hp hs
      refine ⟨.wrap d', .wrap v', ?_, ⟨?_, h2⟩, ⟨?_, h3⟩, ?_, ?_, h6, h7⟩
      · show (if notNull v then _ else _) = _
        have : payload v = some n := hp
        rw [notNull_eq, this, h1]; rfl
      · rw [h4]; exact hv.1
      · rw [h5]; exact hv.1
      · show Ty.maybe _ = Ty.maybe _; rw [h4]
      · show Ty.maybe _ = Ty.maybe _; rw [h5]

/-- Assigning a `Maybe` that holds nothing. -/
theorem assign_none (moved : Nat → Nat) (mv same : Bool) {v d : Val} {t : Ty} (hd : WF d) (hv : WF v)
    (h1 : typeOf d = .maybe t) (h2 : typeOf v = .maybe t) (hp : payload v = none) : assign moved mv same d v = .ok (d, v) := by
  cases v with
  | obj n => cases h2
  | ptr a => cases h2
  | flag o =>
    simp only [payload] at hp
    subst hp
    cases d with
    | obj n => cases h1
    | ptr a => cases h1
    | flag o => rfl
    | wrap d => injection h1 with h1; injection h2 with h2; exact absurd (h1.trans h2.symm) hd.1
  | wrap v =>
    cases d with
    | obj n => cases h1
    | ptr a => cases h1
    | flag o => injection h1 with h1; injection h2 with h2; exact absurd (h2.trans h1.symm) hv.1
    | wrap d =>
      show (if notNull v then _ else _) = _
      have : payload v = none := hp
      rw [notNull_eq, this]; rfl

/-- The states that are as meant. -/
def AsMeant (s : St) (e : Env) : Prop := ∀ k, IsMeant (s k) (e k)

theorem isMeant_of {m : Val} {t : Ty} {x : Option Nat} (h1 : WF m) (h2 : typeOf m = .maybe t) (h3 : payload m = x) :
    IsMeant (some m) (some (t, x)) := ⟨h1, h2, by rw [isJust_eq h2, h3], h3⟩

theorem AsMeant.put {s : St} {e : Env} (h : AsMeant s e) (i : Nat) {v : Option Val} {x : Option (Ty × Option Nat)}
    (hv : IsMeant v x) : AsMeant (s.put i v) (e.put i x) := by
  intro k
  simp only [St.put, Env.put]
  split
  · exact hv
  · exact h k

theorem AsMeant.get {s : St} {e : Env} (h : AsMeant s e) {i : Nat} {t : Ty} {x : Option Nat} (hi : e i = some (t, x)) :
    ∃ m, s i = some m ∧ s.get i = .ok m ∧ WF m ∧ typeOf m = .maybe t ∧ payload m = x := by
  have := h i
  rw [hi] at this
  cases hs : s i with
  | none => rw [hs] at this; exact absurd this id
  | some m =>
    rw [hs] at this
    exact ⟨m, rfl, by unfold St.get; rw [hs], this.1, this.2.1, this.2.2.2⟩

theorem AsMeant.fresh {s : St} {e : Env} (h : AsMeant s e) {i : Nat} (hi : e i = none) : s.fresh i = .ok () := by
  have := h i
  rw [hi] at this
  unfold St.fresh
  cases hs : s i with
  | none => rfl
  | some m => rw [hs] at this; exact absurd this id

theorem construct_spec (moved : Nat → Nat) (mv : Bool) {t : Ty} {m : Val} {x : Option Nat} (hw : WF m)
    (ht : typeOf m = .maybe t) (hp : payload m = x) :
    ∃ n m', construct moved mv t m = .ok (n, m') ∧ IsMeant (some n) (some (t, x)) ∧
      IsMeant (some m') (some (t, if mv then x.map (leftBy moved t) else x)) := by
  obtain ⟨w, a, b⟩ := nothing_spec t
  unfold construct
  rw [isJust_eq ht, hp]
  cases x with
  | none =>
    refine ⟨_, _, rfl, isMeant_of w a b, isMeant_of hw ht ?_⟩
    rw [hp]; cases mv <;> rfl
  | some n =>
    obtain ⟨d', v', h1, h2, h3, h4, h5, h6, h7⟩ :=
      assign_some moved mv false m (nothing t) n w hw (a.trans ht.symm) hp (fun h => by cases h)
    refine ⟨d', v', h1, isMeant_of h2 (h4.trans ht) h6, isMeant_of h3 (h5.trans ht) ?_⟩
    rw [h7, ht]; cases mv <;> rfl

/-- Assigning one variable to another. -/
theorem assign_spec (moved : Nat → Nat) (mv : Bool) {s : St} {e : Env} (h : AsMeant s e) {i j : Nat} {t : Ty} {x y : Option Nat}
    (hi : e i = some (t, y)) (hj : e j = some (t, x)) (hb : ¬ BadAssign e i j) :
    ∃ m n d' m', s.get i = .ok m ∧ s.get j = .ok n ∧ assign moved mv (i == j) m n = .ok (d', m') ∧
      IsMeant (some d') (some (t, x)) ∧ IsMeant (some m') (some (t, if mv then x.map (leftBy moved t) else x)) := by
  obtain ⟨m, _, g1, w1, t1, p1⟩ := h.get hi
  obtain ⟨n, _, g2, w2, t2, p2⟩ := h.get hj
  cases x with
  | none =>
    have hy : y = none := by
      cases y with
      | none => rfl
      | some k => exact absurd (Or.inr ⟨⟨t, hj⟩, t, k, hi⟩) hb
    subst hy
    refine ⟨m, n, m, n, g1, g2, assign_none moved mv _ w1 w2 t1 t2 p2, isMeant_of w1 t1 p1, isMeant_of w2 t2 ?_⟩
    rw [p2]; cases mv <;> rfl
  | some k =>
    obtain ⟨d', v', h1, h2, h3, h4, h5, h6, h7⟩ := assign_some moved mv (i == j) n m k w1 w2 (t1.trans t2.symm) p2
      (fun hs hbase => by
        have hij : i = j := by simpa using hs
        rw [t2] at hbase
        exact hb (Or.inl ⟨hij, t, k, hij ▸ hj, hbase⟩))
    refine ⟨m, n, d', v', g1, g2, h1, isMeant_of h2 (h4.trans t2) h6, isMeant_of h3 (h5.trans t2) ?_⟩
    rw [h7, t2]; cases mv <;> rfl

theorem store_spec (moved : Nat → Nat) {m v : Val} {n : Nat} (hm : WF m) (hv : WF v) (ht : typeOf m = .maybe (typeOf v))
    (hp : payload m = some n) (hb : ¬ (payload v = none ∧ ∃ t, typeOf v = .maybe t)) :
    ∃ m', store moved m v = .ok m' ∧ IsMeant (some m') (some (typeOf v, payload v)) := by
  obtain ⟨d, g, hmd, hd, htd, _⟩ := get_spec hm ht hp
  unfold store
  rw [g]
  simp only [Outcome.ok_bind]
  cases v with
  | obj k =>
    cases d with
    | obj j => subst hmd; exact ⟨.flag (some k), rfl, isMeant_of trivial rfl rfl⟩
    | ptr a => cases htd
    | flag o => cases htd
    | wrap d => cases htd
  | ptr a =>
    cases d with
    | obj j => cases htd
    | ptr b => subst hmd; exact ⟨.wrap (.ptr a), rfl, isMeant_of ⟨by simp [typeOf], trivial⟩ rfl rfl⟩
    | flag o => cases htd
    | wrap d => cases htd
  | flag o =>
    cases ho : o with
    | none => subst ho; exact absurd ⟨rfl, _, rfl⟩ hb
    | some k =>
      subst ho
      cases d with
      | obj j => cases htd
      | ptr a => cases htd
      | flag o => subst hmd; exact ⟨.wrap (.flag (some k)), rfl, isMeant_of ⟨by simp [typeOf], trivial⟩ rfl rfl⟩
      | wrap d => exact absurd (by injection htd) hd.1
  | wrap v =>
    cases hpv : payload (.wrap v) with
    | none => exact absurd ⟨hpv, _, rfl⟩ hb
    | some k =>
      obtain ⟨d', v', h1, h2, h3, h4, h5, h6, h7⟩ := assign_some moved false false (.wrap v) d k hd hv htd hpv
        (fun h => by cases h)
      rw [h1]
      subst hmd
      cases d with
      | obj j => cases htd
      | ptr a => cases htd
      | flag o => exact ⟨.wrap d', rfl, isMeant_of ⟨by rw [h4]; simp [typeOf], h2⟩ (by show Ty.maybe _ = _; rw [h4]) h6⟩
      | wrap d => exact ⟨.wrap d', rfl, isMeant_of ⟨by rw [h4]; simp [typeOf], h2⟩ (by show Ty.maybe _ = _; rw [h4]) h6⟩

theorem step_spec (moved : Nat → Nat) {s : St} {e e' : Env} (h : AsMeant s e) (o : Op) (hw : o.wf)
    (hm : meant moved e o = some e') (hb : ¬ Bad e o) : ∃ s', step moved s o = .ok s' ∧ AsMeant s' e' := by
  cases o with
  | nothing i t =>
    simp only [meant] at hm
    split at hm
    · rename_i hi
      injection hm with hm; subst hm
      obtain ⟨w, a, b⟩ := nothing_spec t
      refine ⟨_, ?_, h.put i (isMeant_of w a b)⟩
      simp only [step]; rw [h.fresh hi]; rfl
    · cases hm
  | value i v =>
    simp only [meant] at hm
    split at hm
    · rename_i hi
      injection hm with hm; subst hm
      obtain ⟨w, a, b⟩ := value_spec hw
      refine ⟨_, ?_, h.put i (isMeant_of w a b)⟩
      simp only [step]; rw [h.fresh hi]; rfl
    · cases hm
  | copy i j t =>
    simp only [meant] at hm
    split at hm
    · rename_i u x hi hj
      split at hm
      · rename_i htu
        subst htu
        injection hm with hm; subst hm
        obtain ⟨m, _, g, w, t1, p⟩ := h.get hj
        obtain ⟨n, m', h1, h2, _⟩ := construct_spec moved false w t1 p
        refine ⟨s.put i (some n), ?_, h.put i h2⟩
        simp only [step]; rw [h.fresh hi, g]; simp only [Outcome.ok_bind]; rw [h1]; rfl
      · cases hm
    · cases hm
  | move i j t =>
    simp only [meant] at hm
    split at hm
    · rename_i u x hi hj
      split at hm
      · rename_i htu
        subst htu
        injection hm with hm; subst hm
        obtain ⟨m, _, g, w, t1, p⟩ := h.get hj
        obtain ⟨n, m', h1, h2, h3⟩ := construct_spec moved true w t1 p
        refine ⟨(s.put j (some m')).put i (some n), ?_, (h.put j h3).put i h2⟩
        simp only [step]; rw [h.fresh hi, g]; simp only [Outcome.ok_bind]; rw [h1]; rfl
      · cases hm
    · cases hm
  | assign i j =>
    simp only [meant] at hm
    split at hm
    · rename_i t y u x hi hj
      split at hm
      · rename_i htu
        subst htu
        injection hm with hm; subst hm
        obtain ⟨m, n, d', m', g1, g2, h1, h2, _⟩ := assign_spec moved false h hi hj hb
        refine ⟨s.put i (some d'), ?_, h.put i h2⟩
        simp only [step]; rw [g1, g2]; simp only [Outcome.ok_bind]; rw [h1]; rfl
      · cases hm
    · cases hm
  | moveAssign i j =>
    simp only [meant] at hm
    split at hm
    · rename_i t y u x hi hj
      split at hm
      · rename_i htu
        subst htu
        injection hm with hm; subst hm
        obtain ⟨m, n, d', m', g1, g2, h1, h2, h3⟩ := assign_spec moved true h hi hj hb
        refine ⟨(s.put j (some m')).put i (some d'), ?_, (h.put j h3).put i h2⟩
        simp only [step]; rw [g1, g2]; simp only [Outcome.ok_bind]; rw [h1]; rfl
      · cases hm
    · cases hm
  | store i v =>
    simp only [meant] at hm
    split at hm
    · rename_i t k hi
      split at hm
      · rename_i htu
        subst htu
        injection hm with hm; subst hm
        obtain ⟨m, _, g, w, t1, p⟩ := h.get hi
        obtain ⟨m', h1, h2⟩ := store_spec moved w hw t1 p hb
        refine ⟨s.put i (some m'), ?_, h.put i h2⟩
        simp only [step]; rw [g]; simp only [Outcome.ok_bind]; rw [h1]; rfl
      · cases hm
    · cases hm
  | drop i =>
    simp only [meant] at hm
    split at hm
    · rename_i x hi
      injection hm with hm; subst hm
      obtain ⟨m, _, g, _⟩ := h.get hi
      refine ⟨s.put i none, ?_, h.put i trivial⟩
      simp only [step]; rw [g]; rfl
    · cases hm

theorem run_spec (moved : Nat → Nat) {l : List Op} {s : St} {e e' : Env} (h : AsMeant s e) (hf : Fine moved e l e') :
    ∃ s', run moved s l = .ok s' ∧ AsMeant s' e' := by
  induction hf generalizing s with
  | nil e => exact ⟨s, rfl, h⟩
  | cons hw hm hb _ ih =>
    obtain ⟨s1, h1, h2⟩ := step_spec moved h _ hw hm hb
    obtain ⟨s2, h3, h4⟩ := ih h2
    exact ⟨s2, by unfold run; rw [h1]; exact h3, h4⟩

/-! ### C117 -/

/-- C117 as stated: whatever is put in a `Maybe` is there and comes out. -/
def C117_full : Prop := ∀ v, WF v → isJust (value v) = true ∧ get (value v) = .ok v

/-- What holds, for every value of every type, nested to any depth: if it does not come down to a null pointer or
to nothing, the `Maybe` made from it holds it; and otherwise the `Maybe` holds nothing and asking it for its
value ends the program. Missing: null pointers and `Maybe`s that hold nothing are not held. -/
theorem C117_value_partial (v : Val) (h : WF v) :
    (payload v ≠ none → isJust (value v) = true ∧ get (value v) = .ok v) ∧
    (payload v = none → isJust (value v) = false ∧ (get (value v)).isTrap = true) := by
  obtain ⟨w, a, b⟩ := value_spec h
  constructor
  · intro hp
    cases hn : payload v with
    | none => exact absurd hn hp
    | some n =>
      refine ⟨by rw [isJust_eq a, b, hn]; rfl, ?_⟩
      obtain ⟨u, g, hu, _⟩ := get_spec w a (b.trans hn)
      rw [g]
      cases v <;> cases u <;> cases hu <;> rfl
  · intro hp
    exact ⟨by rw [isJust_eq a, b, hp]; rfl, get_nothing a (b.trans hp)⟩

/-- C117 for programs: every program of constructions, copies, moves, assignments, assignments through `*` and
ends of life over `Maybe`s of any depth, that avoids the assignments `Bad` names, runs without undefined
behaviour or a failed assertion, and at the end each variable holds something exactly if the last thing given to
it came down to a plain object or a pointer that is not null, and then it comes down to that. Missing: those
assignments, and the level on which something is absent. -/
theorem C117_programs_partial (moved : Nat → Nat) (l : List Op) (e : Env) (hf : Fine moved (fun _ => none) l e) :
    ∃ s, run moved (fun _ => none) l = .ok s ∧ ∀ k, IsMeant (s k) (e k) :=
  run_spec moved (s := fun _ => none) (e := fun _ => none) (fun _ => trivial) hf

/-- `apply` calls its function exactly when there is a value, once, with the value. -/
theorem C117_apply (m : Val) (t : Ty) (hw : WF m) (ht : typeOf m = .maybe t) :
    (isJust m = false → apply m = .ok []) ∧
    (isJust m = true → ∃ v, apply m = .ok [v] ∧ typeOf v = t ∧ m = value v) := by
  unfold apply
  constructor
  · intro h; rw [h]; rfl
  · intro h
    have hj := h
    rw [isJust_eq ht] at h
    cases hp : payload m with
    | none => rw [hp] at h; cases h
    | some n =>
      obtain ⟨v, g, hv, _, htv, _⟩ := get_spec hw ht hp
      exact ⟨v, by rw [hj, g]; rfl, htv, hv⟩

/-- `map` calls its function exactly when there is a value, once, with the value, and returns a `Maybe` made from
its result; it returns nothing otherwise. So what it returns holds the function's result if that does not come
down to a null pointer or nothing. Missing: the results that do. -/
theorem C117_map_partial (r : Ty) (f : Val → Val) (hf : ∀ v, WF (f v) ∧ typeOf (f v) = r) (m : Val) (t : Ty) (hw : WF m)
    (ht : typeOf m = .maybe t) :
    (isJust m = false → ∃ n, map r f m = .ok (n, []) ∧ typeOf n = .maybe r ∧ isJust n = false) ∧
    (isJust m = true → ∃ v n, m = value v ∧ map r f m = .ok (n, [v]) ∧ typeOf n = .maybe r ∧
      (payload (f v) ≠ none → isJust n = true ∧ get n = .ok (f v))) := by
  unfold map
  constructor
  · intro h
    rw [h]
    obtain ⟨_, a, b⟩ := nothing_spec r
    exact ⟨_, rfl, a, by rw [isJust_eq a, b]; rfl⟩
  · intro h
    have hj := h
    rw [isJust_eq ht] at h
    cases hp : payload m with
    | none => rw [hp] at h; cases h
    | some n =>
      obtain ⟨v, g, hv, _, _, _⟩ := get_spec hw ht hp
      obtain ⟨w, a, _⟩ := value_spec (hf v).1
      exact ⟨v, _, hv, by rw [hj, g]; rfl, by rw [a, (hf v).2], (C117_value_partial _ (hf v).1).1⟩

/-- Mapping one function and then another is mapping both at once, if the first never returns a null pointer or
nothing. Missing: when it does. -/
theorem C117_compose_partial (r q : Ty) (f g : Val → Val) (hf : ∀ v, WF (f v) ∧ typeOf (f v) = r ∧ payload (f v) ≠ none)
    (m : Val) :
    (do let (n, _) ← map r f m; let (k, _) ← map q g n; .ok k) = (do let (k, _) ← map q (fun v => g (f v)) m; Outcome.ok k) := by
  unfold map
  cases hj : isJust m with
  | false =>
    obtain ⟨_, a, b⟩ := nothing_spec r
    have hn : isJust (nothing r) = false := by rw [isJust_eq a, b]; rfl
    simp only [Bool.false_eq_true, if_false, Outcome.ok_bind]
    rw [hn]; rfl
  | true =>
    simp only [if_true]
    cases hg : get m with
    | ok v =>
      obtain ⟨h1, h2⟩ := (C117_value_partial (f v) (hf v).1).1 (hf v).2.2
      simp only [Outcome.ok_bind]
      rw [h1, h2]; rfl
    | throw w => rfl
    | trap w => rfl
    | ub w => rfl
    | fuel => rfl

/-- C117 fails: a `Maybe` made from a null pointer, or from a `Maybe` that holds nothing, holds nothing; after
`Maybe<T*> a(p), b; a = b;` the variable still holds `p`, and so it does after `*a = b` for
`Maybe<Maybe<T*>> a(p)`; `a = a` for a `Maybe<Maybe<T>>` that holds an object is undefined; and mapping a function
that returns a null pointer and then one that accepts it is not mapping both at once. -/
theorem C117_negation :
    ¬ C117_full ∧
    isJust (value (.ptr 0)) = false ∧ isJust (value (nothing .obj)) = false ∧
    (∃ s, run id (fun _ => none) [.value 0 (.ptr 8), .nothing 1 .ptr, .assign 0 1] = .ok s ∧ s 0 = some (.wrap (.ptr 8))) ∧
    (∃ s, run id (fun _ => none) [.value 0 (.wrap (.ptr 8)), .store 0 (.wrap (.ptr 0))] = .ok s ∧ s 0 = some (.wrap (.wrap (.ptr 8)))) ∧
    (run id (fun _ => none) [.value 0 (.flag (some 5)), .assign 0 0]).isUb = true ∧
    ∃ f g : Val → Val, (∀ v, typeOf (f v) = .ptr ∧ typeOf (g v) = .ptr) ∧
      map .ptr f (value (.ptr 8)) = .ok (.wrap (.ptr 0), [.ptr 8]) ∧
      map .ptr g (.wrap (.ptr 0)) = .ok (.wrap (.ptr 0), []) ∧
      map .ptr (fun v => g (f v)) (value (.ptr 8)) = .ok (.wrap (.ptr 16), [.ptr 8]) := by
  refine ⟨fun h => absurd (h (.ptr 0) trivial).1 (by decide), rfl, rfl, ⟨_, rfl, rfl⟩, ⟨_, rfl, rfl⟩, rfl,
    fun _ => .ptr 0, fun _ => .ptr 16, fun _ => ⟨rfl, rfl⟩, rfl, rfl, rfl⟩

/-- `Maybe<Maybe<T>> a(just(3)); Maybe<Maybe<T>> b; b = a; *b = just(4); Maybe<T*> p(q), r(p), n(nullptr); p = p;
*r = q2;` and the end of `a`: the hypotheses of the programs theorem hold. -/
example : ∃ e, Fine (fun _ => 0) (fun _ => none) [.value 0 (.flag (some 3)), .nothing 1 (.maybe .obj), .assign 1 0,
      .store 1 (.flag (some 4)), .value 2 (.ptr 8), .copy 3 2 .ptr, .value 4 (.ptr 0), .assign 2 2, .store 3 (.ptr 16), .drop 0] e ∧
    e 0 = none ∧ e 1 = some (.maybe .obj, some 4) ∧ e 2 = some (.ptr, some 8) ∧ e 3 = some (.ptr, some 16) ∧
    e 4 = some (.ptr, none) := by
  refine ⟨_, .cons trivial rfl id (.cons trivial rfl id (.cons trivial rfl ?_ (.cons trivial rfl ?_ (.cons trivial rfl id
    (.cons trivial rfl id (.cons trivial rfl id (.cons trivial rfl ?_ (.cons trivial rfl ?_ (.cons trivial rfl id (.nil _)))))))))),
    rfl, rfl, rfl, rfl, rfl⟩
  · rintro (⟨h, _⟩ | ⟨⟨t, h⟩, _⟩) <;> cases h
  · rintro ⟨h, _⟩; cases h
  · rintro (⟨_, t, n, h, hb⟩ | ⟨⟨t, h⟩, _⟩)
    · injection h with h; injection h with h; subst h; cases hb
    · cases h
  · rintro ⟨h, _⟩; cases h

/-- A doubly nested `Maybe` holding an object meets the hypotheses about `map` and `apply`, with a function that
returns a pointer that is not null. -/
example : let m := value (value (value (.obj 3))); WF m ∧ typeOf m = .maybe (.maybe (.maybe .obj)) ∧ isJust m = true ∧
    (∀ v : Val, WF ((fun _ => Val.ptr 8) v) ∧ typeOf ((fun _ => Val.ptr 8) v) = .ptr ∧ payload ((fun _ => Val.ptr 8) v) ≠ none) ∧
    map .ptr (fun _ => .ptr 8) m = .ok (.wrap (.ptr 8), [value (value (.obj 3))]) ∧
    apply m = .ok [value (value (.obj 3))] :=
  ⟨⟨by simp [value, typeOf], by simp [value, typeOf], trivial⟩, rfl, rfl, fun _ => ⟨trivial, rfl, by simp [payload]⟩, rfl, rfl⟩

end Ab.MaybeNull
