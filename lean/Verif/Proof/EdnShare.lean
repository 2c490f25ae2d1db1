import Verif.Proof.EdnHeap2
import Verif.Spec.EdnShare
/-! Counting uses is not observable. -/
namespace Ab.EdnHeap

open Spec Edn Share

/-- The live nodes have the contents of the objects. -/
structure Sim (s : State) (w : World) : Prop where
  vars : s.vars = w.vars
  len : s.heap.length = w.objs.length
  cells : ∀ (a : Nat) (c : Cell), s.heap[a]? = some (some c) → w.objs[a]? = some ⟨c.mdata, c.body⟩

/-- Contents only. -/
def HSim (h : Heap) (o : List Obj) : Prop :=
  h.length = o.length ∧ ∀ (a : Nat) (c : Cell), h[a]? = some (some c) → o[a]? = some ⟨c.mdata, c.body⟩

theorem Sim.h {s : State} {w : World} (x : Sim s w) : HSim s.heap w.objs := ⟨x.len, x.cells⟩

theorem HSim.bare {h h' : Heap} {o : List Obj} (x : HSim h o) (e : bare h' = bare h) : HSim h' o := by
  refine ⟨?_, fun a c hc => ?_⟩
  · rw [← x.1]; have := congrArg List.length e; simpa [EdnHeap.bare] using this
  · obtain ⟨c', hc', e1, e2⟩ := bare_deref e hc
    rw [x.2 a c' hc', e1, e2]

theorem HSim.sub {h h' : Heap} {o : List Obj} (x : HSim h o) (e : Sub h' h) : HSim h' o := by
  refine ⟨e.1.trans x.1, fun a c hc => ?_⟩
  obtain ⟨c', hc', e1, e2⟩ := e.2 a c hc
  rw [x.2 a c' hc', e1, e2]

theorem HSim.set {h : Heap} {o : List Obj} (x : HSim h o) (a : Nat) (d : Cell) :
    HSim (h.set a (some d)) (o.set a ⟨d.mdata, d.body⟩) := by
  refine ⟨by simp [x.1], fun b c hc => ?_⟩
  rw [List.getElem?_set] at hc ⊢
  by_cases e : a = b
  · rw [if_pos e] at hc ⊢
    rw [← x.1]
    by_cases hl : a < h.length
    · rw [if_pos hl] at hc ⊢
      injection hc with hc; injection hc with hc; subst hc; rfl
    · rw [if_neg hl] at hc; cases hc
  · rw [if_neg e] at hc ⊢; exact x.2 b c hc

theorem HSim.set' {h : Heap} {o : List Obj} (x : HSim h o) (a : Nat) (d : Cell) {ob : Obj} (e1 : d.mdata = ob.mdata)
    (e2 : d.body = ob.body) : HSim (h.set a (some d)) (o.set a ob) := by
  have := x.set a d
  rw [e1, e2] at this
  exact this

theorem HSim.push {h : Heap} {o : List Obj} (x : HSim h o) (d : Cell) :
    HSim (h ++ [some d]) (o ++ [⟨d.mdata, d.body⟩]) := by
  refine ⟨by simp [x.1], fun b c hc => ?_⟩
  by_cases hl : b < h.length
  · rw [List.getElem?_append_left hl] at hc
    rw [List.getElem?_append_left (by rw [← x.1]; exact hl)]
    exact x.2 b c hc
  · have hge : h.length ≤ b := by omega
    rw [List.getElem?_append_right hge] at hc
    rw [List.getElem?_append_right (by rw [← x.1]; exact hge), ← x.1]
    cases hk : b - h.length with
    | zero => rw [hk] at hc; simp at hc; subst hc; rfl
    | succ k => rw [hk] at hc; simp at hc

/-! ### Computations ending the same way -/

theorem _root_.Ab.Spec.Share.Same.bind {α β γ δ} {R : α → β → Prop} {S : γ → δ → Prop} {x : Outcome α} {y : Outcome β}
    {f : α → Outcome γ} {g : β → Outcome δ} (h : Same R x y)
    (hf : ∀ a b, x = .ok a → y = .ok b → R a b → Same S (f a) (g b)) : Same S (x >>= f) (y >>= g) := by
  cases x <;> cases y <;> first | exact hf _ _ rfl rfl h | exact h | cases h

theorem _root_.Ab.Spec.Share.Same.eq {α} {x y : Outcome α} (h : x = y) : Same Eq x y := by
  subst h; cases x <;> first | rfl | trivial

theorem same_get {s : State} {w : World} (h : Sim s w) (x : Nat) : Same Eq (s.var x) (w.get x) := by
  unfold State.var World.get
  rw [h.vars]
  by_cases hx : x < w.vars.length
  · rw [dif_pos hx, List.getElem?_eq_getElem hx]; rfl
  · rw [dif_neg hx, List.getElem?_eq_none (by omega)]; rfl

theorem same_getAll {s : State} {w : World} (h : Sim s w) : ∀ ys, Same Eq (s.varAll ys) (w.getAll ys)
  | [] => rfl
  | y :: ys => (same_get h y).bind fun p p' _ _ e => (same_getAll h ys).bind fun q q' _ _ e' => by subst e e'; rfl

theorem same_look {h : Heap} {w : World} (x : HSim h w.objs) {p : Ptr} (hp : Valid h p) :
    Same (fun c o => o = ⟨c.mdata, c.body⟩) (deref h p) (w.look p) := by
  cases p with
  | none => rfl
  | some a =>
    obtain ⟨c, hc⟩ := hp
    have h1 := x.2 a c hc
    obtain ⟨hl, h2⟩ := List.getElem?_eq_some_iff.mp h1
    simp only [deref, hc, World.look, dif_pos hl]
    exact h2

theorem same_assign {s : State} {w : World} (h : Sim s w) {x : Nat} {p : Ptr} (i : Inv s.heap (p :: s.vars)) :
    Same Sim (s.assign x p) (w.put x p) := by
  unfold State.assign State.var World.put
  by_cases hx : x < w.vars.length
  · have hx' : s.vars[x]? = some s.vars[x]! := by
      rw [h.vars]; simp [List.getElem?_eq_getElem hx]
    generalize s.vars[x]! = old at hx'
    obtain ⟨h', e, i', sb⟩ := drop_spec (w := [old]) (r := s.vars.set x p) (i.perm (fun a => by
      have := set_count hx' p (some a)
      rw [List.count_append]
      simp only [List.count_cons, List.count_nil] at *; omega))
    rw [if_pos hx, hx']
    simp only [Outcome.ok_bind]
    rw [e]
    obtain ⟨l, cs⟩ := h.h.sub sb
    exact ⟨by show s.vars.set x p = _; rw [h.vars], l, cs⟩
  · rw [if_neg hx, show s.vars[x]? = none from by rw [h.vars]; exact List.getElem?_eq_none (by omega)]
    rfl

theorem fresh_inv {h1 : Heap} {r : List Ptr} {b : Body} (i1 : Inv h1 (b.refs ++ r)) :
    Inv (h1 ++ [some ⟨1, none, b⟩]) (some h1.length :: r) := by
  refine ⟨fun (a : Nat) => ?_, fun (a : Nat) c hc => ?_⟩
  · have h2 := i1.exact a
    simp only [Heap.refs_append, List.count_append, Heap.refs_cons, refsOf, Cell.refs] at *
    rw [count_cons_ite, show Heap.refs [] = [] from rfl]
    have e0 : [(none : Ptr)].count (some a) = 0 := by simp
    by_cases hlt : a < h1.length
    · have hne : ¬ a = h1.length := by omega
      rw [List.getElem?_append_left hlt, if_neg hne, e0]
      simp only [List.count_nil]; omega
    · have hge : h1.length ≤ a := by omega
      rw [List.getElem?_append_right hge]
      have h3 : cnt h1[a]? = 0 := by rw [List.getElem?_eq_none hge]; rfl
      by_cases he : a = h1.length
      · subst he
        rw [Nat.sub_self, if_pos rfl, e0]
        simp only [List.getElem?_cons_zero, List.count_nil]
        show 1 = _
        omega
      · have hge' : [some (⟨1, none, b⟩ : Cell)].length ≤ a - h1.length := by simp; omega
        rw [if_neg he, e0, List.getElem?_eq_none hge']
        simp only [List.count_nil]
        show 0 = _
        omega
  · by_cases hlt : a < h1.length
    · rw [List.getElem?_append_left hlt] at hc
      exact i1.pos a c hc
    · have hge : h1.length ≤ a := by omega
      rw [List.getElem?_append_right hge] at hc
      cases hk : a - h1.length with
      | zero =>
        rw [hk] at hc
        simp at hc; subst hc; exact Nat.one_pos
      | succ k => rw [hk] at hc; simp at hc

theorem same_fresh {s : State} {w : World} (h : Sim s w) (i : Inv s.heap s.vars) {x : Nat} {b : Body}
    (hb : ∀ p ∈ b.refs, p ∈ s.vars) : Same Sim (s.fresh x b) (w.new x b) := by
  obtain ⟨h1, e1, i1, b1⟩ := retainAll_spec b.refs i (fun p hp => Or.inl (hb p hp))
  unfold State.fresh World.new
  rw [e1, Outcome.ok_bind]
  have hl : h1.length = s.heap.length := by
    have := congrArg List.length b1
    simpa [bare] using this
  rw [← h.len, ← hl]
  obtain ⟨l, cs⟩ := (h.h.bare b1).push ⟨1, none, b⟩
  exact same_assign (s := ⟨h1 ++ [some ⟨1, none, b⟩], s.vars⟩) (w := ⟨w.objs ++ [⟨none, b⟩], w.vars⟩)
    ⟨h.vars, l, cs⟩ (fresh_inv i1)

theorem same_seq (b : Body) : Same (fun xs r => r.1 = xs ∧ ∀ ys, withElements b ys = r.2 ys) (elements b) (sequence b) := by
  cases b <;> first | exact ⟨rfl, fun _ => rfl⟩ | rfl

theorem same_map (b : Body) : Same (fun es r => es = r) (entries b) (mapping b) := by
  cases b <;> rfl

theorem sort_iff (b : Body) (v : Atom) : sort b v = decide (b.kind = v.node.kind) := by
  cases b with
  | atom a => cases a <;> cases v <;> rfl
  | _ => cases v <;> rfl

/-! ### Hashing and comparing see contents only -/

theorem look_heap {h : Heap} {w : World} (x : HSim h w.objs) {p : Ptr} (hp : Valid h p) :
    Same (fun c d => d.mdata = c.mdata ∧ d.body = c.body) (deref h p) (deref w.heap p) := by
  cases p with
  | none => rfl
  | some a =>
    obtain ⟨c, hc⟩ := hp
    have h1 := x.2 a c hc
    have h2 : w.heap[a]? = some (some ⟨0, c.mdata, c.body⟩) := by simp [World.heap, h1]
    simp only [deref, hc, h2]
    exact ⟨rfl, rfl⟩

theorem hashLoop_congr {f g : Ptr → Outcome U64} : ∀ (ps : List Ptr) (x : U64), (∀ p ∈ ps, f p = g p) →
    hashLoop f ps x = hashLoop g ps x
  | [], _, _ => rfl
  | p :: ps, x, h => by
    simp only [hashLoop]
    rw [h p (by simp)]
    congr 1; funext v
    exact hashLoop_congr ps _ fun q hq => h q (by simp [hq])

theorem eqLoop_congr {f g : Ptr → Ptr → Outcome Bool} : ∀ (xs ys : List Ptr), (∀ x ∈ xs, ∀ y ∈ ys, f x y = g x y) →
    eqLoop f xs ys = eqLoop g xs ys
  | [], _, _ => rfl
  | _ :: _, [], _ => rfl
  | x :: xs, y :: ys, h => by
    simp only [eqLoop]
    rw [h x (by simp) y (by simp), eqLoop_congr xs ys fun a ha b hb => h a (by simp [ha]) b (by simp [hb])]

theorem findLoop_congr {f g : Ptr → Ptr → Outcome Bool} (x : U64) (k : Ptr) : ∀ (es : List HEntry),
    (∀ e ∈ es, f k (some e.key) = g k (some e.key)) → findLoop f x k es = findLoop g x k es
  | [], _ => rfl
  | e :: es, h => by
    simp only [findLoop]
    rw [h e (by simp), findLoop_congr x k es fun d hd => h d (by simp [hd])]

theorem mapLoop_congr {g g' : Ptr → Outcome U64} {f f' : Ptr → Ptr → Outcome Bool} (fs : List HEntry) : ∀ (es : List HEntry),
    (∀ e ∈ es, g (some e.key) = g' (some e.key)) →
    (∀ e ∈ es, ∀ d ∈ fs, f (some e.key) (some d.key) = f' (some e.key) (some d.key) ∧ f e.val d.val = f' e.val d.val) →
    mapLoop g f fs es = mapLoop g' f' fs es
  | [], _, _ => rfl
  | e :: es, h1, h2 => by
    have ih := mapLoop_congr fs es (fun d hd => h1 d (by simp [hd])) (fun d hd => h2 d (by simp [hd]))
    simp only [mapLoop]
    rw [h1 e (by simp)]
    congr 1; funext v
    rw [findLoop_congr v (some e.key) fs fun d hd => (h2 e (by simp) d hd).1]
    cases hr : findLoop f' v (some e.key) fs with
    | ok r =>
      cases r with
      | none => rfl
      | some d =>
        simp only [Outcome.ok_bind]
        rw [(h2 e (by simp) d (findLoop_mem hr)).2, ih]
    | _ => rfl

theorem hash_same (L : Lib) {h : Heap} {w : World} (x : HSim h w.objs) (hcl : Closed h) : ∀ (n : Nat) (p : Ptr), Valid h p →
    hashH L h n p = hashH L w.heap n p
  | 0, _, _ => rfl
  | n + 1, p, hp => by
    have hs := look_heap x hp
    simp only [hashH]
    cases h1 : deref h p <;> cases h2 : deref w.heap p <;> rw [h1, h2] at hs
    case ok.ok c d =>
      obtain ⟨a, rfl, ha⟩ := deref_ok h1
      simp only [Outcome.ok_bind]
      rw [hs.2]
      have hv : ∀ q ∈ c.body.refs, hashH L h n q = hashH L w.heap n q := fun q hq =>
        hash_same L x hcl n q (hcl _ (mem_refs ha (List.mem_append_left _ hq)))
      cases hb : c.body with
      | atom a => rfl
      | list xs => rw [hb] at hv; exact hashLoop_congr _ _ hv
      | vec xs => rw [hb] at hv; exact hashLoop_congr _ _ hv
      | map es => rw [hb] at hv; exact hashLoop_congr _ _ hv
    all_goals first | exact (hs : False).elim | (cases (hs : _ = _); rfl) | rfl

theorem eq_same (L : Lib) {h : Heap} {w : World} (x : HSim h w.objs) (hcl : Closed h) : ∀ (n : Nat) (p q : Ptr), Valid h p →
    Valid h q → eqH L h n p q = eqH L w.heap n p q
  | 0, _, _, _, _ => rfl
  | n + 1, p, q, hp, hq => by
    have hs := look_heap x hp
    have hs' := look_heap x hq
    simp only [eqH]
    cases h1 : deref h p <;> cases h2 : deref w.heap p <;> rw [h1, h2] at hs
    case ok.ok c d =>
      cases h3 : deref h q <;> cases h4 : deref w.heap q <;> rw [h3, h4] at hs'
      case ok.ok c' d' =>
        obtain ⟨a, rfl, ha⟩ := deref_ok h1
        obtain ⟨a', rfl, ha'⟩ := deref_ok h3
        simp only [Outcome.ok_bind]
        rw [hs.2, hs'.2]
        have v1 : ∀ q ∈ c.body.refs, Valid h q := fun q hq => hcl _ (mem_refs ha (List.mem_append_left _ hq))
        have v2 : ∀ q ∈ c'.body.refs, Valid h q := fun q hq => hcl _ (mem_refs ha' (List.mem_append_left _ hq))
        have ih := fun p hp q hq => eq_same L x hcl n p q (v1 p hp) (v2 q hq)
        have ihh := fun p hp => hash_same L x hcl n p (v1 p hp)
        cases hb : c.body <;> cases hb' : c'.body <;> rw [hb] at ih ihh <;> rw [hb'] at ih <;> try rfl
        · exact ite_congr rfl (fun _ => eqLoop_congr _ _ ih) (fun _ => rfl)
        · exact ite_congr rfl (fun _ => eqLoop_congr _ _ ih) (fun _ => rfl)
        · rename_i es fs
          refine ite_congr rfl (fun _ => mapLoop_congr _ _ (fun e he => ihh _ ?_) (fun e he d hd => ⟨ih _ ?_ _ ?_, ih _ ?_ _ ?_⟩)) (fun _ => rfl) <;>
            (simp only [Body.refs, List.mem_flatMap]; first | exact ⟨e, he, by simp⟩ | exact ⟨d, hd, by simp⟩)
      all_goals first | exact (hs' : False).elim | (cases (hs' : _ = _); rfl) | rfl
    all_goals first | exact (hs : False).elim | (cases (hs : _ = _); rfl) | rfl

/-! ### Steps -/

theorem sim_of {h : Heap} {vars : List Ptr} {w : World} {o : List Obj} (x : HSim h o) (e : vars = w.vars) :
    Sim ⟨h, vars⟩ ⟨o, w.vars⟩ := ⟨e, x.1, x.2⟩

theorem step_same {L : HLib} (hL : Orderly L) (n : Nat) {s : State} {w : World} (h : Sim s w) (i : Inv s.heap s.vars) (o : Op) :
    Same Sim (step L n s o) (Share.step L n w o) := by
  have hval : ∀ {p}, p ∈ s.vars → Valid s.heap p := fun hp => i.valid (Or.inl hp)
  have app : ∀ (p : Ptr) (r : List Ptr) (a : Addr), (p :: r).count (some a) = [p].count (some a) + r.count (some a) := by
    intro p r a; rw [← List.count_append]; rfl
  -- following a pointer after copying others
  have again : ∀ {h' : Heap} {a : Addr} {c0 : Cell}, bare h' = bare s.heap → s.heap[a]? = some (some c0) →
      ∃ c : Cell, deref h' (some a) = .ok c ∧ h'[a]? = some (some c) ∧ c.body = c0.body ∧ c.mdata = c0.mdata := by
    intro h' a c0 e hc0
    obtain ⟨c, hc, e1, e2⟩ := bare_deref e.symm hc0
    exact ⟨c, by simp only [deref, hc], hc, e1, e2⟩
  cases o with
  | atom x a => exact same_fresh h i (fun p hp => by cases hp)
  | list x ys => exact (same_getAll h ys).bind fun ps qs hps _ e => by subst e; exact same_fresh h i (varAll_mem hps)
  | vec x ys => exact (same_getAll h ys).bind fun ps qs hps _ e => by subst e; exact same_fresh h i (varAll_mem hps)
  | map x => exact same_fresh h i (fun p hp => by cases hp)
  | copy x y =>
    refine (same_get h y).bind fun p p' hp _ e => ?_
    subst e
    obtain ⟨h', e, i', b'⟩ := retain_spec i (Or.inl (var_mem hp))
    rw [e, Outcome.ok_bind]
    exact same_assign (sim_of (h.h.bare b') h.vars) i'
  | null x => exact same_assign h (i.perm (fun a => by simp))
  | push c y =>
    refine (same_get h c).bind fun p p' hp _ e => ?_
    subst e
    refine (same_get h y).bind fun q q' hq _ e => ?_
    subst e
    cases p with
    | none => rfl
    | some a =>
      obtain ⟨c0, hc0⟩ := hval (var_mem hp)
      obtain ⟨h', e, i', b'⟩ := retain_spec i (Or.inl (var_mem hq))
      obtain ⟨cell, hd, hc, e1, e2⟩ := again b' hc0
      simp only [addr, Outcome.ok_bind]
      rw [e, Outcome.ok_bind, hd, Outcome.ok_bind]
      have hl := same_look h.h (hval (var_mem hp))
      simp only [deref, hc0] at hl
      cases hw : w.look (some a) <;> rw [hw] at hl <;> first | exact (hl : False).elim | skip
      rename_i ob
      change ob = _ at hl
      subst hl
      simp only [Outcome.ok_bind]
      rw [e1]
      refine (same_seq c0.body).bind fun xs r _ _ hr => ?_
      obtain ⟨r1, r2⟩ := r
      obtain ⟨hr1, hr⟩ := hr
      dsimp only at hr1 hr
      subst hr1
      rw [hr]
      exact sim_of ((h.h.bare b').set' a { cell with body := r2 (r1 ++ [q]) } e2 rfl) h.vars
  | setAt c j y =>
    refine (same_get h c).bind fun p p' hp _ e => ?_
    subst e
    refine (same_get h y).bind fun q q' hq _ e => ?_
    subst e
    cases p with
    | none => rfl
    | some a =>
      simp only [addr, Outcome.ok_bind]
      refine (same_look h.h (hval (var_mem hp))).bind fun c0 ob hc0 _ e => ?_
      subst e
      obtain ⟨_, ea, hc0⟩ := deref_ok hc0
      injection ea with ea; subst ea
      refine (same_seq c0.body).bind fun xs r hxs _ hr => ?_
      obtain ⟨r1, r2⟩ := r
      obtain ⟨hr1, hr⟩ := hr
      dsimp only at hr1 hr
      subst hr1
      by_cases hj : j < r1.length
      · simp only [List.getElem?_eq_getElem hj, if_pos hj]
        obtain ⟨h', e, i', b'⟩ := retain_spec i (Or.inl (var_mem hq))
        obtain ⟨cell, hd, hc, e1, e2⟩ := again b' hc0
        rw [e, Outcome.ok_bind, hd, Outcome.ok_bind]
        rw [← e1] at hxs
        obtain ⟨q1, q2⟩ := elements_refs hxs
        have i2 : Inv (setBody h' a cell (withElements cell.body (r1.set j q))) ([r1[j]] ++ s.vars) := by
          refine i'.update hc (d := { cell with body := _ }) (show 0 < cell.count from i'.pos _ cell hc) fun b => ?_
          have h1 := refs_body cell (withElements cell.body (r1.set j q)) (some b)
          have h2 := set_count (List.getElem?_eq_getElem hj) q (some b)
          rw [q1, q2] at h1
          rw [app q, List.count_append]
          simp only; omega
        obtain ⟨h2, e2', i3, sb⟩ := drop_spec i2
        rw [e2']
        exact sim_of (((h.h.bare b').set' a { cell with body := withElements cell.body (r1.set j q) }
          (ob := ⟨c0.mdata, r2 (r1.set j q)⟩) e2 (by rw [← hr, ← e1])).sub sb) h.vars
      · simp only [List.getElem?_eq_none (Nat.le_of_not_lt hj), if_neg hj]
        rfl
  | getAt x c j =>
    refine (same_get h c).bind fun p p' hp _ e => ?_
    subst e
    refine (same_look h.h (hval (var_mem hp))).bind fun c0 ob hc0 _ e => ?_
    subst e
    obtain ⟨a, rfl, hcell⟩ := deref_ok hc0
    refine (same_seq c0.body).bind fun xs r hxs _ hr => ?_
    obtain ⟨r1, r2⟩ := r
    obtain ⟨hr1, hr⟩ := hr
    dsimp only at hr1 hr
    subst hr1
    by_cases hj : j < r1.length
    · simp only [List.getElem?_eq_getElem hj, dif_pos hj]
      have hm : r1[j] ∈ c0.refs := by
        unfold Cell.refs; rw [(elements_refs hxs).1]
        exact List.mem_append_left _ (List.getElem_mem hj)
      obtain ⟨h', e, i', b'⟩ := retain_spec i (Or.inr (Or.inl (mem_refs hcell hm)))
      rw [e, Outcome.ok_bind]
      exact same_assign (sim_of (h.h.bare b') h.vars) i'
    · simp only [List.getElem?_eq_none (Nat.le_of_not_lt hj), dif_neg hj]
      rfl
  | clear c =>
    refine (same_get h c).bind fun p p' hp _ e => ?_
    subst e
    cases p with
    | none => rfl
    | some a =>
      simp only [addr, Outcome.ok_bind]
      refine (same_look h.h (hval (var_mem hp))).bind fun c0 ob hc0 _ e => ?_
      subst e
      obtain ⟨_, ea, hc0⟩ := deref_ok hc0
      injection ea with ea; subst ea
      refine (same_seq c0.body).bind fun xs r hxs _ hr => ?_
      obtain ⟨r1, r2⟩ := r
      obtain ⟨hr1, hr⟩ := hr
      dsimp only at hr1 hr
      subst hr1
      obtain ⟨q1, q2⟩ := elements_refs hxs
      have i2 : Inv (setBody s.heap a c0 (withElements c0.body [])) (r1 ++ s.vars) := by
        refine i.update hc0 (d := { c0 with body := _ }) (show 0 < c0.count from i.pos _ c0 hc0) fun b => ?_
        have h1 := refs_body c0 (withElements c0.body []) (some b)
        rw [q1, q2] at h1
        rw [List.count_append]
        simp only [List.count_nil] at *; omega
      obtain ⟨h2, e2, i3, sb⟩ := drop_spec i2
      simp only
      rw [e2]
      exact sim_of ((h.h.set' a { c0 with body := withElements c0.body [] } (ob := ⟨c0.mdata, r2 []⟩) rfl (hr [])).sub sb) h.vars
  | setAtom c v =>
    refine (same_get h c).bind fun p p' hp _ e => ?_
    subst e
    cases p with
    | none => rfl
    | some a =>
      simp only [addr, Outcome.ok_bind]
      refine (same_look h.h (hval (var_mem hp))).bind fun c0 ob hc0 _ e => ?_
      subst e
      simp only [sort_iff]
      by_cases hk : c0.body.kind = v.node.kind
      · rw [if_pos hk, if_pos (decide_eq_true hk)]
        exact sim_of (h.h.set a { c0 with body := .atom v }) h.vars
      · rw [if_neg hk, if_neg (by simpa using hk)]
        rfl
  | setMeta c y =>
    refine (same_get h c).bind fun p p' hp _ e => ?_
    subst e
    refine (same_get h y).bind fun q q' hq _ e => ?_
    subst e
    cases p with
    | none => rfl
    | some a =>
      simp only [addr, Outcome.ok_bind]
      obtain ⟨c0, hc0⟩ := hval (var_mem hp)
      have hl := same_look h.h (hval (var_mem hp))
      simp only [deref, hc0] at hl
      cases hw : w.look (some a) <;> rw [hw] at hl <;> first | exact (hl : False).elim | skip
      rename_i ob
      change ob = _ at hl
      subst hl
      simp only [Outcome.ok_bind]
      refine (same_look h.h (hval (var_mem hq))).bind fun m mo _ _ e => ?_
      subst e
      refine (same_map m.body).bind fun _ _ _ _ _ => ?_
      obtain ⟨h', e, i', b'⟩ := retain_spec i (Or.inl (var_mem hq))
      obtain ⟨cell, hd, hc, e1, e2⟩ := again b' hc0
      rw [e, Outcome.ok_bind, hd, Outcome.ok_bind]
      have i2 : Inv (h'.set a (some { cell with mdata := q })) ([cell.mdata] ++ s.vars) := by
        refine i'.update hc (d := { cell with mdata := q }) (show 0 < cell.count from i'.pos _ cell hc) fun b => ?_
        rw [app q, List.count_append]
        simp only [Cell.refs, List.count_append]; omega
      obtain ⟨h2, e2', i3, sb⟩ := drop_spec i2
      rw [e2']
      exact sim_of (((h.h.bare b').set' a { cell with mdata := q } (ob := ⟨q, c0.body⟩) rfl e1).sub sb) h.vars
  | getMeta x c =>
    refine (same_get h c).bind fun p p' hp _ e => ?_
    subst e
    refine (same_look h.h (hval (var_mem hp))).bind fun c0 ob hc0 _ e => ?_
    subst e
    obtain ⟨a, rfl, hcell⟩ := deref_ok hc0
    have hm : c0.mdata ∈ c0.refs := List.mem_append_right _ (by simp)
    obtain ⟨h', e, i', b'⟩ := retain_spec i (Or.inr (Or.inl (mem_refs hcell hm)))
    rw [e, Outcome.ok_bind]
    exact same_assign (sim_of (h.h.bare b') h.vars) i'
  | insert m k v =>
    refine (same_get h m).bind fun p p' hp _ e => ?_
    subst e
    refine (same_get h k).bind fun kp kp' hk _ e => ?_
    subst e
    refine (same_get h v).bind fun vp vp' hv _ e => ?_
    subst e
    cases p with
    | none => rfl
    | some a =>
      simp only [addr, Outcome.ok_bind]
      refine (same_look h.h (hval (var_mem hp))).bind fun c0 ob hc0 _ e => ?_
      subst e
      obtain ⟨_, ea, hc0⟩ := deref_ok hc0
      injection ea with ea; subst ea
      refine (same_map c0.body).bind fun es es' hes _ e => ?_
      subst e
      have hbody := entries_refs hes
      unfold World.lookup
      rw [Outcome.bind_assoc', hash_same L.toLib h.h i.closed n kp (hval (var_mem hk))]
      refine (Same.eq rfl).bind fun x x' _ _ e => ?_
      subst e
      rw [Outcome.bind_assoc', findLoop_congr (g := eqH L.toLib w.heap n) x kp es fun d hd =>
        eq_same L.toLib h.h i.closed n _ _ (hval (var_mem hk)) (i.closed _ (mem_refs hc0 (List.mem_append_left _ (by
          rw [hbody]; simp only [Body.refs, List.mem_flatMap]; exact ⟨d, hd, by simp⟩))))]
      refine (Same.eq rfl).bind fun r r' _ _ e => ?_
      subst e
      cases r with
      | some e => exact h
      | none =>
        simp only [Outcome.ok_bind]
        cases kp with
        | none => rfl
        | some ka =>
          simp only [addr, Outcome.ok_bind]
          obtain ⟨h', e, i', b'⟩ := retainAll_spec [some ka, vp] i (fun p hp => Or.inl (by
            simp only [List.mem_cons, List.not_mem_nil, or_false] at hp
            rcases hp with rfl | rfl
            · exact var_mem hk
            · exact var_mem hv))
          obtain ⟨cell, hd, hc, e1, e2⟩ := again b' hc0
          rw [e, Outcome.ok_bind, hd, Outcome.ok_bind]
          exact sim_of ((h.h.bare b').set' a { cell with body := .map (L.hplace es ⟨x, ka, vp⟩) } e2 rfl) h.vars
  | find x m k =>
    refine (same_get h m).bind fun p p' hp _ e => ?_
    subst e
    refine (same_get h k).bind fun kp kp' hk _ e => ?_
    subst e
    refine (same_look h.h (hval (var_mem hp))).bind fun c0 ob hc0 _ e => ?_
    subst e
    obtain ⟨a, rfl, hcell⟩ := deref_ok hc0
    refine (same_map c0.body).bind fun es es' hes _ e => ?_
    subst e
    have hbody := entries_refs hes
    have hmem : ∀ d ∈ es, some d.key ∈ s.heap.refs ∧ d.val ∈ s.heap.refs := by
      intro d hd
      refine ⟨mem_refs hcell (List.mem_append_left _ ?_), mem_refs hcell (List.mem_append_left _ ?_)⟩ <;>
        (rw [hbody]; simp only [Body.refs, List.mem_flatMap]; exact ⟨d, hd, by simp⟩)
    unfold World.lookup findH
    rw [Outcome.bind_assoc', Outcome.bind_assoc', hash_same L.toLib h.h i.closed n kp (hval (var_mem hk))]
    refine (Same.eq rfl).bind fun y y' _ _ e => ?_
    subst e
    rw [Outcome.bind_assoc', findLoop_congr (g := eqH L.toLib w.heap n) y kp es fun d hd =>
        eq_same L.toLib h.h i.closed n _ _ (hval (var_mem hk)) (i.closed _ (hmem d hd).1)]
    refine (Same.eq rfl).bind fun r r' hr _ e => ?_
    subst e
    cases r with
    | none => rfl
    | some e =>
      simp only [Outcome.ok_bind]
      obtain ⟨h', e', i', b'⟩ := retain_spec i (Or.inr (Or.inl (hmem e (findLoop_mem hr)).2))
      rw [e', Outcome.ok_bind]
      exact same_assign (sim_of (h.h.bare b') h.vars) i'

theorem run_same {L : HLib} (hL : Orderly L) (n : Nat) : ∀ (os : List Op) {s : State} {w : World}, Sim s w → Inv s.heap s.vars →
    Same Sim (run L n s os) (Share.run L n w os)
  | [], _, _, h, _ => h
  | o :: os, s, w, h, i => (step_same hL n h i o).bind fun s' w' e _ h' => by
    have := step_fine hL n i o
    rw [e] at this
    exact run_same hL n os h' this

end Ab.EdnHeap
