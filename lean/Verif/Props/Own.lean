import Verif.Proof.Own
import Verif.Props.Module
/-!
Property theorems C68 and C69: who owns the bytes of a module, and when they are released.
-/
namespace Ab.Own
open Spec.Own

theorem compile_not_ub (bs : List Byte) (w : String) : compile bs ≠ .ub w := by
  intro h
  rcases C07_compile_total_and_safe bs with ⟨x, e⟩ | ⟨x, e⟩ | ⟨x, e⟩ <;> rw [e] at h <;> cases h

theorem compile_not_fuel (bs : List Byte) : compile bs ≠ .fuel := by
  intro h
  rcases C07_compile_total_and_safe bs with ⟨x, e⟩ | ⟨x, e⟩ | ⟨x, e⟩ <;> rw [e] at h <;> cases h

theorem handed_cons (op : Op) (ops : List Op) (x : Nat × Nat) :
    (handed (op :: ops)).count x = (handed [op]).count x + (handed ops).count x := by
  cases op with
  | storage b d =>
    cases d
    · simp [handed]
    · simp only [handed, List.count_cons, List.count_nil]; omega
  | compileBytes b => simp only [handed, List.count_cons, List.count_nil]; omega
  | instantiateBytes b => simp only [handed, List.count_cons, List.count_nil]; omega
  | _ => simp [handed]

theorem run_inv (mem : Nat → List Byte) : ∀ (ops : List Op) (s : St) (H : List (Nat × Nat)), Inv s H →
    SensibleProgram mem s ops →
    (∃ s' H', run mem s ops = .ok s' ∧ Inv s' H' ∧ ∀ x, H'.count x = H.count x + (handed ops).count x) ∨
    (∃ w, run mem s ops = .trap w) ∨ run mem s ops = .fuel
  | [], s, H, h, _ => Or.inl ⟨s, H, rfl, h, by intro x; simp [handed]⟩
  | op :: ops, s, H, h, hs => by
    simp only [run]
    rcases step_inv mem (fun b w => compile_not_ub _ w) h op hs.1 with ⟨s1, e, i1⟩ | ⟨w, e⟩ | e
    · rw [e]
      simp only [Outcome.ok_bind]
      rcases run_inv mem ops s1 _ i1 (hs.2 s1 e) with ⟨s2, H2, e2, i2, c2⟩ | r
      · refine Or.inl ⟨s2, H2, e2, i2, ?_⟩
        intro x
        rw [c2, handed_cons, List.count_append]
        omega
      · exact Or.inr r
    · rw [e]; exact Or.inr (Or.inl ⟨w, rfl⟩)
    · rw [e]; exact Or.inr (Or.inr rfl)

theorem compileInto_not_fuel (mem : Nat → List Byte) (s : St) (st : Storage) : compileInto mem s st ≠ .fuel := by
  unfold compileInto
  cases hb : st.block with
  | none => simp
  | some b =>
    cases h : compile (mem b) with
    | fuel => exact absurd h (compile_not_fuel _)
    | _ => simp [h]

theorem bind_not_fuel {α β : Type} {x : Outcome α} {f : α → Outcome β} (hx : x ≠ .fuel) (hf : ∀ a, f a ≠ .fuel) :
    (x >>= f) ≠ .fuel := by
  cases x with
  | ok a => exact hf a
  | fuel => exact absurd rfl hx
  | _ => intro h; cases h

theorem release_not_fuel (s : St) (m : Nat) : release s m ≠ .fuel := by
  unfold release
  split
  · split <;> simp
  · simp

theorem retain_not_fuel (s : St) (m : Nat) : retain s m ≠ .fuel := by
  unfold retain
  split <;> simp

theorem newInst_not_fuel (s : St) (m : Nat) : newInst s m ≠ .fuel := by
  unfold newInst
  split <;> simp

theorem destroyAll_not_fuel : ∀ (l : List Nat) (s : St), destroyAll s l ≠ .fuel
  | [], s => by simp [destroyAll]
  | i :: is, s => by
    unfold destroyAll
    split
    · exact bind_not_fuel (release_not_fuel _ _) (fun a => destroyAll_not_fuel is a)
    · simp

theorem step_not_fuel (mem : Nat → List Byte) (s : St) (op : Op) : step mem s op ≠ .fuel := by
  cases op <;> simp only [step]
  case storage => simp
  case moveStorage => split <;> simp
  case dropStorage => split <;> simp
  case compileStorage =>
    split
    · refine bind_not_fuel (compileInto_not_fuel _ _ _) ?_
      rintro ⟨s, r⟩
      cases r <;> simp
    · simp
  case compileBytes =>
    refine bind_not_fuel (compileInto_not_fuel _ _ _) ?_
    rintro ⟨s, r⟩
    cases r <;> simp
  case copyPtr =>
    split
    · exact bind_not_fuel (retain_not_fuel _ _) (by simp)
    · simp
    · simp
  case movePtr => split <;> simp
  case dropPtr =>
    split
    · exact release_not_fuel _ _
    · simp
    · simp
  case instantiate =>
    split
    · exact bind_not_fuel (retain_not_fuel _ _) (fun a => newInst_not_fuel _ _)
    · simp
    · simp
  case instantiateMove =>
    split
    · exact newInst_not_fuel _ _
    · simp
    · simp
  case instantiateBytes =>
    refine bind_not_fuel (compileInto_not_fuel _ _ _) ?_
    rintro ⟨s, r⟩
    cases r
    · simp
    · exact newInst_not_fuel _ _
  case deleteInst =>
    split
    · exact release_not_fuel _ _
    · simp
  case destroyVm =>
    split
    · exact destroyAll_not_fuel _ _
    · simp

theorem run_not_fuel (mem : Nat → List Byte) : ∀ (ops : List Op) (s : St), run mem s ops ≠ .fuel
  | [], s => by simp [run]
  | op :: ops, s => bind_not_fuel (step_not_fuel mem s op) (fun a => run_not_fuel mem ops a)

theorem run_inv_init {mem : Nat → List Byte} {ops : List Op} {s : St} (hs : SensibleProgram mem St.init ops)
    (hr : run mem St.init ops = .ok s) : ∃ H, Inv s H ∧ ∀ x, H.count x = (handed ops).count x := by
  rcases run_inv mem ops St.init [] inv_init hs with ⟨s', H, e, i, c⟩ | ⟨w, e⟩ | e
  · rw [hr] at e
    injection e with e
    subst e
    exact ⟨H, i, by intro x; rw [c]; simp⟩
  · rw [hr] at e; cases e
  · rw [hr] at e; cases e

/-- Held means reachable. -/
theorem reaches_iff_held {s : St} {e : Nat → Nat} (h : InvU s e) (he : ∀ m, e m = 0) (d b : Nat) : Reaches s d b ↔ 0 < held s d b := by
  constructor
  · rintro (hs | ⟨m, ⟨x, hx, hst⟩, _⟩)
    · have : 0 < s.storages.countP (isSto d b) := List.countP_pos_iff.2 ⟨_, hs, by simp [isSto]⟩
      unfold held; omega
    · have : 0 < s.mods.countP (isMod d b) :=
        List.countP_pos_iff.2 ⟨_, List.mem_of_getElem? hx, by simp [isMod, hst]⟩
      unfold held; omega
  · intro hh
    unfold held at hh
    by_cases hs : 0 < s.storages.countP (isSto d b)
    · obtain ⟨o, ho, hp⟩ := List.countP_pos_iff.1 hs
      simp only [isSto, decide_eq_true_eq] at hp
      subst hp
      exact Or.inl ho
    · have hm : 0 < s.mods.countP (isMod d b) := by omega
      obtain ⟨o, ho, hp⟩ := List.countP_pos_iff.1 hm
      simp only [isMod, decide_eq_true_eq] at hp
      cases o with
      | none => cases hp
      | some x =>
        simp only [Option.map_some, Option.some.injEq] at hp
        obtain ⟨m, hm⟩ := List.getElem?_of_mem ho
        refine Or.inr ⟨m, ⟨x, hm, hp⟩, ?_⟩
        obtain ⟨hu, hpos⟩ := h.live m x hm
        rw [hu, he] at hpos
        unfold refs at hpos
        by_cases hpt : 0 < s.ptrs.countP (isPtr m)
        · obtain ⟨o, ho, hq⟩ := List.countP_pos_iff.1 hpt
          simp only [isPtr, decide_eq_true_eq] at hq
          subst hq
          exact Or.inl ho
        · have hin : 0 < s.insts.countP (isInst m) := by omega
          obtain ⟨o, ho, hq⟩ := List.countP_pos_iff.1 hin
          simp only [isInst, decide_eq_true_eq] at hq
          cases o with
          | none => cases hq
          | some i =>
            simp only [Option.map_some, Option.some.injEq] at hq
            exact Or.inr ⟨i, ho, hq⟩

/-! ## C68 the bytes are released exactly once, after the last use -/

/-- **C68.** After every sensible program, a block that was handed over once has not been released while the program
can still reach it – through a storage, a pointer or an instance – and has been released exactly once, with the deleter it was
handed over with, when it cannot. This includes blocks whose compilation raised an exception. -/
theorem C68_released_once_after_last_use (mem : Nat → List Byte) (ops : List Op) (s : St)
    (hs : SensibleProgram mem St.init ops) (hr : run mem St.init ops = .ok s) (d b : Nat)
    (h1 : (handed ops).count (d, b) = 1) :
    (Reaches s d b → s.freed.count (d, b) = 0) ∧ (¬ Reaches s d b → s.freed.count (d, b) = 1) := by
  obtain ⟨H, i, c⟩ := run_inv_init hs hr
  have hb := i.blocks d b
  rw [c, h1] at hb
  have hi := reaches_iff_held i.u (fun _ => rfl) d b
  constructor
  · intro h
    have := hi.1 h
    omega
  · intro h
    have : ¬ 0 < held s d b := fun x => h (hi.2 x)
    omega

/-- **C68.** Nothing else is released: not a block with another deleter, not a block the program kept. -/
theorem C68_nothing_else_released (mem : Nat → List Byte) (ops : List Op) (s : St)
    (hs : SensibleProgram mem St.init ops) (hr : run mem St.init ops = .ok s) (d b : Nat)
    (h0 : (handed ops).count (d, b) = 0) : s.freed.count (d, b) = 0 := by
  obtain ⟨H, i, c⟩ := run_inv_init hs hr
  have hb := i.blocks d b
  rw [c, h0] at hb
  omega

/-- **C68.** A sensible program never touches a destroyed module, storage or pointer: it finishes, or the process ends
inside `compile` (C08). -/
theorem C68_sensible_programs_are_defined (mem : Nat → List Byte) (ops : List Op)
    (hs : SensibleProgram mem St.init ops) :
    (∃ s, run mem St.init ops = .ok s) ∨ (∃ w, run mem St.init ops = .trap w) := by
  rcases run_inv mem ops St.init [] inv_init hs with ⟨s', H, e, i, c⟩ | ⟨w, e⟩ | e
  · exact Or.inl ⟨s', e⟩
  · exact Or.inr ⟨w, e⟩
  · exact absurd e (run_not_fuel mem ops _)

/-- **C68.** When the program has let go of everything, every block it handed over once has been released once. -/
theorem C68_nothing_leaks (mem : Nat → List Byte) (ops : List Op) (s : St)
    (hs : SensibleProgram mem St.init ops) (hr : run mem St.init ops = .ok s) (hg : AllGone s) (d b : Nat)
    (h1 : (handed ops).count (d, b) = 1) : s.freed.count (d, b) = 1 := by
  refine (C68_released_once_after_last_use mem ops s hs hr d b h1).2 ?_
  obtain ⟨g1, g2, g3⟩ := hg
  rintro (h | ⟨m, _, h | ⟨i, h, _⟩⟩)
  · cases g1 _ h
  · cases g2 _ h
  · cases g3 _ h

/-- Modules have the content compiled from their block, and instances the functions of their module. -/
structure Faithful (mem : Nat → List Byte) (s : St) : Prop where
  mods : ∀ (m : Nat) x, s.mods[m]? = some (some x) → ∃ b, x.storage.block = some b ∧ compile (mem b) = .ok x.content
  insts : ∀ i, some i ∈ s.insts → i.mod < s.mods.length ∧ ∀ x, s.mods[i.mod]? = some (some x) → i.funcs = x.content.funcs

theorem Faithful.congr {mem : Nat → List Byte} {s s' : St} (h : Faithful mem s) (hm : s'.mods = s.mods)
    (hi : ∀ i, some i ∈ s'.insts → some i ∈ s.insts) : Faithful mem s' :=
  ⟨by rw [hm]; exact h.mods, by rw [hm]; exact fun i x => h.insts i (hi i x)⟩

theorem mem_set_none {α : Type} {l : List (Option α)} {i : Nat} {x : α} (h : some x ∈ l.set i none) : some x ∈ l := by
  rcases List.mem_or_eq_of_mem_set h with h | h
  · exact h
  · cases h

theorem Faithful.retain {mem : Nat → List Byte} {s s' : St} {m : Nat} (h : Faithful mem s) (hr : retain s m = .ok s') : Faithful mem s' := by
  unfold Own.retain at hr
  split at hr
  · rename_i x hx
    injection hr with hr
    subst hr
    refine ⟨fun k y hy => ?_, fun i hi => ⟨?_, fun y hy => ?_⟩⟩
    · rcases getElem?_set_cases hy with ⟨_, e⟩ | ⟨_, e⟩
      · injection e with e; subst e; exact h.mods m x hx
      · exact h.mods k y e
    · simpa using (h.insts i hi).1
    · rcases getElem?_set_cases hy with ⟨e', e⟩ | ⟨_, e⟩
      · injection e with e; subst e; exact (h.insts i hi).2 x (by rw [e']; exact hx)
      · exact (h.insts i hi).2 y e
  · cases hr

theorem Faithful.release {mem : Nat → List Byte} {s s' : St} {m : Nat} (h : Faithful mem s) (hr : release s m = .ok s') : Faithful mem s' := by
  unfold Own.release at hr
  split at hr
  · rename_i x hx
    split at hr
    · injection hr with hr
      subst hr
      refine ⟨fun k y hy => ?_, fun i hi => ⟨?_, fun y hy => ?_⟩⟩
      · rcases getElem?_set_cases hy with ⟨_, e⟩ | ⟨_, e⟩
        · cases e
        · exact h.mods k y e
      · simpa using (h.insts i hi).1
      · rcases getElem?_set_cases hy with ⟨_, e⟩ | ⟨_, e⟩
        · cases e
        · exact (h.insts i hi).2 y e
    · injection hr with hr
      subst hr
      refine ⟨fun k y hy => ?_, fun i hi => ⟨?_, fun y hy => ?_⟩⟩
      · rcases getElem?_set_cases hy with ⟨_, e⟩ | ⟨_, e⟩
        · injection e with e; subst e; exact h.mods m x hx
        · exact h.mods k y e
      · simpa using (h.insts i hi).1
      · rcases getElem?_set_cases hy with ⟨e', e⟩ | ⟨_, e⟩
        · injection e with e; subst e; exact (h.insts i hi).2 x (by rw [e']; exact hx)
        · exact (h.insts i hi).2 y e
  · cases hr

theorem Faithful.snoc {mem : Nat → List Byte} {s s' : St} {o : Option Mod} (h : Faithful mem s) (hm : s'.mods = s.mods ++ [o])
    (hi : s'.insts = s.insts) (ho : ∀ x, o = some x → ∃ b, x.storage.block = some b ∧ compile (mem b) = .ok x.content) : Faithful mem s' := by
  refine ⟨fun k y hy => ?_, fun i hi' => ⟨?_, fun y hy => ?_⟩⟩
  · rw [hm, List.getElem?_append] at hy
    split at hy
    · exact h.mods k y hy
    · exact ho y (List.mem_singleton.1 (List.mem_of_getElem? hy)).symm
  · rw [hm, List.length_append]
    have := (h.insts i (hi ▸ hi')).1
    omega
  · have := (h.insts i (hi ▸ hi')).1
    rw [hm, List.getElem?_append_left this] at hy
    exact (h.insts i (hi ▸ hi')).2 y hy

theorem Faithful.compileInto {mem : Nat → List Byte} {s : St} {st : Storage} {r : St × Option Nat} (h : Faithful mem s)
    (hr : compileInto mem s st = .ok r) : Faithful mem r.1 := by
  unfold Own.compileInto at hr
  cases hb : st.block with
  | none => rw [hb] at hr; cases hr
  | some b =>
    rw [hb] at hr
    simp only at hr
    cases hc : compile (mem b) with
    | ok c =>
      rw [hc] at hr
      injection hr with hr
      subst hr
      exact h.snoc rfl rfl (fun x hx => by injection hx with hx; subst hx; exact ⟨b, hb, hc⟩)
    | throw w =>
      rw [hc] at hr
      injection hr with hr
      subst hr
      exact h.snoc rfl rfl (fun x hx => by cases hx)
    | _ => rw [hc] at hr; cases hr

theorem Faithful.newInst {mem : Nat → List Byte} {s s' : St} {m : Nat} (h : Faithful mem s) (hr : newInst s m = .ok s') : Faithful mem s' := by
  unfold Own.newInst at hr
  split at hr
  · rename_i x hx
    injection hr with hr
    subst hr
    refine ⟨h.mods, fun i hi => ?_⟩
    rcases List.mem_append.1 hi with hi | hi
    · exact h.insts i hi
    · simp only [List.mem_singleton, Option.some.injEq] at hi
      subst hi
      refine ⟨(List.getElem?_eq_some_iff.1 hx).1, fun y hy => ?_⟩
      dsimp only at hy
      rw [hx] at hy
      injection hy with hy; injection hy with hy; subst hy
      rfl
  · cases hr

theorem Faithful.destroyAll {mem : Nat → List Byte} : ∀ (l : List Nat) {s s' : St}, Faithful mem s → destroyAll s l = .ok s' → Faithful mem s'
  | [], s, s', h, hr => by injection hr with hr; subst hr; exact h
  | i :: is, s, s', h, hr => by
    unfold Own.destroyAll at hr
    split at hr
    · obtain ⟨s1, h1, h2⟩ := Outcome.bind_eq_ok.1 hr
      have f1 := Faithful.release (h.congr (s' := { s with insts := s.insts.set i none }) rfl (fun _ h => mem_set_none h)) h1
      exact Faithful.destroyAll is f1 h2
    · cases hr

theorem Faithful.step {mem : Nat → List Byte} {s s' : St} {op : Op} (h : Faithful mem s) (hr : step mem s op = .ok s') : Faithful mem s' := by
  have comp : ∀ {s : St} {st : Storage} {r}, Faithful mem s → Own.compileInto mem s st = .ok r → Faithful mem r.1 := fun h e => h.compileInto e
  cases op <;> simp only [Own.step] at hr
  case storage => injection hr with hr; subst hr; exact h.congr rfl (fun _ h => h)
  case moveStorage => split at hr <;> first | (injection hr with hr; subst hr; exact h.congr rfl (fun _ h => h)) | cases hr
  case dropStorage => split at hr <;> first | (injection hr with hr; subst hr; exact h.congr rfl (fun _ h => h)) | cases hr
  case compileStorage =>
    split at hr
    · obtain ⟨⟨s1, r⟩, h1, h2⟩ := Outcome.bind_eq_ok.1 hr
      have f1 := Faithful.compileInto (st := _) ((fun l => Faithful.congr (s' := { s with storages := l }) h rfl (fun _ h => h)) _) h1
      cases r <;> (injection h2 with h2; subst h2; exact Faithful.congr f1 rfl (fun _ h => h))
    · cases hr
  case compileBytes =>
    obtain ⟨⟨s1, r⟩, h1, h2⟩ := Outcome.bind_eq_ok.1 hr
    have f1 := h.compileInto h1
    cases r <;> (injection h2 with h2; subst h2; exact Faithful.congr f1 rfl (fun _ h => h))
  case copyPtr =>
    split at hr
    · obtain ⟨s1, h1, h2⟩ := Outcome.bind_eq_ok.1 hr
      injection h2 with h2; subst h2
      exact Faithful.congr (h.retain h1) rfl (fun _ h => h)
    · injection hr with hr; subst hr; exact h.congr rfl (fun _ h => h)
    · cases hr
  case movePtr => split at hr <;> first | (injection hr with hr; subst hr; exact h.congr rfl (fun _ h => h)) | cases hr
  case dropPtr =>
    split at hr
    · exact Faithful.release ((fun l => Faithful.congr (s' := { s with ptrs := l }) h rfl (fun _ h => h)) _) hr
    · injection hr with hr; subst hr; exact h.congr rfl (fun _ h => h)
    · cases hr
  case instantiate =>
    split at hr
    · obtain ⟨s1, h1, h2⟩ := Outcome.bind_eq_ok.1 hr
      exact (h.retain h1).newInst h2
    · cases hr
    · cases hr
  case instantiateMove =>
    split at hr
    · exact Faithful.newInst ((fun l => Faithful.congr (s' := { s with ptrs := l }) h rfl (fun _ h => h)) _) hr
    · cases hr
    · cases hr
  case instantiateBytes =>
    obtain ⟨⟨s1, r⟩, h1, h2⟩ := Outcome.bind_eq_ok.1 hr
    have f1 := h.compileInto h1
    cases r with
    | none => injection h2 with h2; subst h2; exact Faithful.congr f1 rfl (fun _ h => by simpa using h)
    | some m => exact Faithful.newInst f1 h2
  case deleteInst =>
    split at hr
    · exact Faithful.release (h.congr (s' := { s with insts := s.insts.set _ none }) rfl (fun _ h => mem_set_none h)) hr
    · cases hr
  case destroyVm =>
    split at hr
    · exact Faithful.destroyAll _ (Faithful.congr (s' := { s with vm := none }) h rfl (fun _ h => h)) hr
    · cases hr

theorem Faithful.run {mem : Nat → List Byte} : ∀ (ops : List Op) {s s' : St}, Faithful mem s → run mem s ops = .ok s' → Faithful mem s'
  | [], s, s', h, hr => by injection hr with hr; subst hr; exact h
  | op :: ops, s, s', h, hr => by
    obtain ⟨s1, h1, h2⟩ := Outcome.bind_eq_ok.1 hr
    exact Faithful.run ops (h.step h1) h2

/-- **C68.** After every sensible program, every instance it holds has its module alive, with the block it was made from, and has the
functions that `compile` finds in that block; likewise every module a pointer points to. -/
theorem C68_instances_keep_their_code (mem : Nat → List Byte) (ops : List Op) (s : St)
    (hs : SensibleProgram mem St.init ops) (hr : run mem St.init ops = .ok s) :
    (∀ i, some i ∈ s.insts → ∃ x b c, s.mods[i.mod]? = some (some x) ∧ x.storage.block = some b ∧ compile (mem b) = .ok c ∧
      i.funcs = c.funcs) ∧
    (∀ m, some (some m) ∈ s.ptrs → ∃ x b, s.mods[m]? = some (some x) ∧ x.storage.block = some b ∧ compile (mem b) = .ok x.content) := by
  obtain ⟨H, i, _⟩ := run_inv_init hs hr
  have f : Faithful mem s := Faithful.run ops (s := St.init) ⟨fun m x h => by simp [St.init] at h, fun i h => by simp [St.init] at h⟩ hr
  have live : ∀ m, 0 < refs s m → ∃ x, s.mods[m]? = some (some x) := by
    intro m hm
    refine Classical.byContradiction fun h => ?_
    have := i.u.dead m (fun x hx => h ⟨x, hx⟩)
    omega
  constructor
  · intro j hj
    obtain ⟨x, hx⟩ := live j.mod (by
      have : 0 < s.insts.countP (isInst j.mod) := List.countP_pos_iff.2 ⟨_, hj, by simp [isInst]⟩
      unfold refs; omega)
    obtain ⟨b, hb, hc⟩ := f.mods _ x hx
    exact ⟨x, b, x.content, hx, hb, hc, (f.insts j hj).2 x hx⟩
  · intro m hm
    obtain ⟨x, hx⟩ := live m (by
      have : 0 < s.ptrs.countP (isPtr m) := List.countP_pos_iff.2 ⟨_, hm, by simp [isPtr]⟩
      unfold refs; omega)
    obtain ⟨b, hb, hc⟩ := f.mods _ x hx
    exact ⟨x, b, hx, hb, hc⟩

/-- The files used in the examples: block 1 is an empty module, every other block is not a module. -/
def exMem : Nat → List Byte := fun b => if b = 1 then Spec.header else []

/-- A program that compiles a good and a bad block, instantiates the good one twice, and lets go of everything. -/
def exProgram : List Op :=
  [.storage 1 (some 5), .compileStorage 0, .compileBytes 2, .instantiate 0, .instantiateMove 0,
   .deleteInst 0, .deleteInst 1, .dropPtr 0, .dropStorage 0, .destroyVm]

theorem exProgram_run : ∃ s, run exMem St.init exProgram = .ok s ∧ s.freed = [(5, 1), (0, 2)] ∧ AllGone s := by
  have hh : compile Spec.header = .ok Module.empty := by decide +kernel
  have he : compile [] = .throw "Read past end of buffer" := by decide +kernel
  refine ⟨⟨[(5, 1), (0, 2)], [none], [none, none], [none, none], [none, none], none⟩, ?_, rfl, ?_⟩
  · simp [exProgram, run, step, compileInto, exMem, hh, he, St.init, freeStorage, retain, release, newInst,
      Storage.moved, destroyAll, FREE]
  · simp [AllGone]

example : (handed exProgram).count (5, 1) = 1 ∧ (handed exProgram).count (0, 2) = 1 := by decide

example : SensibleProgram exMem St.init exProgram := by
  have hh : compile Spec.header = .ok Module.empty := by decide +kernel
  have he : compile [] = .throw "Read past end of buffer" := by decide +kernel
  simp [exProgram, SensibleProgram, Sensible, step, compileInto, exMem, hh, he, St.init, freeStorage, retain, release, newInst,
      Storage.moved, FREE]

/-- Two functions in block 1, which is instantiated and kept: the instance has those functions. -/
example : ∃ s i, SensibleProgram (fun _ => writeModule exampleModule) St.init [.instantiateBytes 1] ∧
    run (fun _ => writeModule exampleModule) St.init [.instantiateBytes 1] = .ok s ∧ some i ∈ s.insts ∧
    0 < i.funcs.length := by
  have h : ∃ c, compile (writeModule exampleModule) = .ok c ∧ 0 < c.funcs.length := by
    have hd : (match compile (writeModule exampleModule) with
      | .ok c => decide (0 < c.funcs.length)
      | _ => false) = true := by decide +kernel
    split at hd
    · exact ⟨_, by assumption, of_decide_eq_true hd⟩
    · cases hd
  obtain ⟨c, hc, hl⟩ := h
  refine ⟨⟨[], [], [some ⟨⟨some 1, some 0⟩, 1, c⟩], [], [some ⟨0, c.funcs⟩], some []⟩, ⟨0, c.funcs⟩, ?_, ?_, by simp, hl⟩
  · simp [SensibleProgram, Sensible, step, compileInto, hc, St.init, newInst]
  · simp [run, step, compileInto, hc, St.init, newInst, FREE]

/-! ## C69 the VM destroys its instances -/

/-- **C69**, full statement (Loading.hpp:31-32): when the VM has been destroyed, no instance is left. -/
def C69_full : Prop :=
  ∀ (mem : Nat → List Byte) (ops : List Op) (s : St), SensibleProgram mem St.init (ops ++ [.destroyVm]) →
    run mem St.init (ops ++ [.destroyVm]) = .ok s → ∀ o ∈ s.insts, o = none

/-- **C69 is false of the code**: instantiating a module and destroying the VM leaves the instance, and with it the
module and its bytes. -/
theorem C69_negation : ¬ C69_full := by
  intro h
  have hh : compile Spec.header = .ok Module.empty := by decide +kernel
  have := h exMem [.instantiateBytes 1] ⟨[], [], [some ⟨⟨some 1, some 0⟩, 1, Module.empty⟩], [], [some ⟨0, []⟩], none⟩
    (by simp [SensibleProgram, Sensible, step, compileInto, exMem, hh, St.init, newInst])
    (by simp [run, step, compileInto, exMem, hh, St.init, newInst, destroyAll, FREE, Module.empty])
    (some ⟨0, []⟩) (by simp)
  cases this

/-- How it fails: for every program, destroying the VM destroys nothing and releases nothing – the VM's table of instances is always
empty. -/
theorem C69_vm_destroys_nothing (mem : Nat → List Byte) (ops : List Op) (s s' : St)
    (hs : SensibleProgram mem St.init ops) (hr : run mem St.init ops = .ok s)
    (hd : step mem s .destroyVm = .ok s') :
    s'.insts = s.insts ∧ s'.freed = s.freed ∧ s'.mods = s.mods ∧ s'.ptrs = s.ptrs := by
  obtain ⟨H, i, _⟩ := run_inv_init hs hr
  simp only [step] at hd
  cases hv : s.vm with
  | none => rw [hv] at hd; cases hd
  | some l =>
    have := i.u.vm l hv
    subst this
    rw [hv] at hd
    simp only [destroyAll] at hd
    injection hd with hd
    subst hd
    exact ⟨rfl, rfl, rfl, rfl⟩

end Ab.Own
