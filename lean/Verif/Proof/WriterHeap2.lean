import Verif.Proof.WriterHeap
/-! Proofs about module writing over the allocator: sections, code writers, the whole module. -/
namespace Ab.WH

open BB

theorem Writes.cast {e R w l l'} (x : Writes e R w l) (h : l = l') : Writes e R w l' := h ▸ x

theorem Writes.var {e R} (v : U32) : Writes e R (putVar e v) (appendVaruint32 v) := Writes.bytes _

theorem Writes.size {e R} (n : Nat) : Writes e R (putSize e n) (varSize n) := Writes.bytes _

theorem Writes.type {e R} (t : FuncType) : Writes e R (putType e t) (appendType t) := by
  refine Writes.cast (Writes.seq (Writes.put (by simp)) (Writes.seq (Writes.size _) (Writes.seq
    (Writes.bytes _) (Writes.seq (Writes.size _) (Writes.bytes _))))) ?_
  simp only [appendType, List.append_assoc]

/-- The code writers of the vector, paired with what they hold. -/
abbrev Codes := List (CodeW × CodeEntry)

/-- Their buffers, as read-only buffers. -/
def Codes.bufs (P : Codes) : List (Buf × List Byte) := P.map (fun x => (x.1.body, x.2.body))

theorem Writes.code {e R} {c : CodeW} {l : CodeEntry} (hn : c.nregs = some l.nregs)
    (hm : (c.body, l.body) ∈ R) : Writes e R (putCode e c) (appendCode l) := by
  unfold putCode
  rw [hn]
  have h1 : Writes e R (WH.seq (fun h b => putVar e l.nregs h b) (fun h b => BB.appendBuf e.mem h b c.body))
      (appendVaruint32 l.nregs ++ l.body) := Writes.seq (Writes.var _) (Writes.appendBuf hm)
  have h2 : ∀ (d : Buf), d.size = (appendVaruint32 l.nregs ++ l.body).length →
      Writes e ((d, appendVaruint32 l.nregs ++ l.body) :: R)
        (WH.seq (putSize e d.size) (fun h b => BB.appendBuf e.mem h b d)) (appendCode l) := by
    intro d hd
    rw [hd]
    exact Writes.seq (Writes.size _) (Writes.appendBuf (List.mem_cons_self ..))
  refine Writes.withContent h1 h2 ?_
  simp only [appendCode, List.length_append]
  omega

theorem Writes.section {e R} (code : Byte) {fill : W} {l : List Byte} (x : Writes e R fill l) :
    Writes e R (WH.withContent e fill (fun content => WH.seq (WH.put e [code]) <| WH.seq (putSize e content.size)
      (fun h b => BB.appendBuf e.mem h b content))) (appendSection code l) := by
  refine Writes.withContent x ?_ ?_
  · intro d hd
    rw [hd]
    refine Writes.cast (Writes.seq (Writes.put (by simp)) (Writes.seq (Writes.size _)
      (Writes.appendBuf (List.mem_cons_self ..)))) ?_
    simp only [appendSection, List.append_assoc]
  · simp only [appendSection, List.length_append]; omega

theorem Writes.typeSection {e R} (ts : List FuncType) :
    Writes e R (putTypeSection e ts) (appendTypeSection ts) := by
  unfold putTypeSection appendTypeSection
  split
  · exact Writes.skip
  · exact Writes.section _ (Writes.seq (Writes.size _) (Writes.each (fun t _ => Writes.type t)))

theorem Writes.funcSection {e R} (fs : List U32) :
    Writes e R (putFuncSection e fs) (appendFuncSection fs) := by
  unfold putFuncSection appendFuncSection
  split
  · exact Writes.skip
  · exact Writes.section _ (Writes.seq (Writes.size _) (Writes.each (fun t _ => Writes.var t)))

theorem each_map {α β : Type} (f : β → W) (g : α → β) :
    ∀ xs : List α, each f (xs.map g) = each (fun x => f (g x)) xs
  | [] => rfl
  | x :: xs => by simp only [List.map_cons, each, each_map f g xs]

theorem Writes.codeSection {e} (P : Codes) (hP : ∀ x ∈ P, x.1.nregs = some x.2.nregs) :
    Writes e P.bufs (putCodeSection e (P.map (·.1))) (appendCodeSection (P.map (·.2))) := by
  unfold putCodeSection appendCodeSection
  simp only [List.length_map]
  split
  · exact Writes.skip
  · refine Writes.section _ (Writes.seq (Writes.size _) ?_)
    rw [each_map, List.map_map]
    refine Writes.each (g := (appendCode ∘ fun (x : CodeW × CodeEntry) => x.2)) (fun x hx => ?_)
    exact Writes.code (hP x hx) (List.mem_map.mpr ⟨x, hx, rfl⟩)

theorem Writes.module {e} (ts : List FuncType) (fs : List U32) (P : Codes)
    (hP : ∀ x ∈ P, x.1.nregs = some x.2.nregs) :
    Writes e P.bufs (putModule e ts fs (P.map (·.1))) (writeModule ⟨ts, fs, P.map (·.2)⟩) := by
  refine Writes.cast (Writes.seq (Writes.put (by simp [leU32])) (Writes.seq (Writes.put (by simp [leU32]))
    (Writes.seq (Writes.typeSection ts) (Writes.seq (Writes.funcSection fs) (Writes.codeSection P hP))))) ?_
  simp only [writeModule, List.append_assoc]

theorem Writes.insns {e R} (is : List Insn) :
    Writes e R (WH.each (putInsn e) is) (is.map writeInsn).flatten :=
  Writes.each (fun _ _ => Writes.bytes _)

/-- The heap `h` is the base heap `H` plus the blocks of the code writers `P`, and nothing else. -/
structure Holds (H h : Heap) (P : Codes) : Prop where
  hok : HOk h
  next : H.next ≤ h.next
  own : ∀ x ∈ P, x.1.nregs = some x.2.nregs ∧ Own h x.1.body x.2.body
  addr : ∀ x ∈ P, ∀ a, x.1.body.data = some a → H.next ≤ a
  dist : P.Pairwise (fun x y => x.1.body.data ≠ y.1.body.data)
  rest : ∀ a, (∀ x ∈ P, x.1.body.data ≠ some a) → h.blocks a = H.blocks a

theorem Holds.has {H h P} (s : Holds H h P) : Has h P.bufs := by
  intro c hc
  obtain ⟨x, hx, rfl⟩ := List.mem_map.mp hc
  exact (s.own x hx).2

/-- Destroying code writers frees their blocks and nothing else. -/
theorem destroyAll_own : ∀ {h : Heap} {P : Codes}, HOk h → (∀ x ∈ P, Own h x.1.body x.2.body) →
    P.Pairwise (fun x y => x.1.body.data ≠ y.1.body.data) →
    ∃ h', destroyAll h (P.map (·.1)) = .ok h' ∧ h'.next = h.next ∧ HOk h' ∧
      (∀ x ∈ P, ∀ a, x.1.body.data = some a → h'.blocks a = none) ∧
      (∀ a, (∀ x ∈ P, x.1.body.data ≠ some a) → h'.blocks a = h.blocks a) := by
  intro h P
  induction P generalizing h with
  | nil => intro ho _ _; exact ⟨h, rfl, rfl, ho, by simp, fun _ _ => rfl⟩
  | cons x P ih =>
    intro ho hown hdist
    obtain ⟨a, ha, hc⟩ := clear_own (hown x (List.mem_cons_self ..))
    have hd := List.pairwise_cons.mp hdist
    have ho1 : HOk (h.set a none) := by
      intro z hz
      simp only [Heap.set]
      split
      · rfl
      · exact ho z hz
    have hown1 : ∀ y ∈ P, Own (h.set a none) y.1.body y.2.body := by
      intro y hy
      refine (hown y (List.mem_cons_of_mem _ hy)).same (Nat.le_refl _) ?_
      intro z hz
      have : z ≠ a := by intro hh; subst hh; exact hd.1 y hy (by rw [ha, hz])
      simp [Heap.set, this]
    obtain ⟨h', h1, h2, h3, h4, h5⟩ := ih ho1 hown1 hd.2
    refine ⟨h', ?_, h2, h3, ?_, ?_⟩
    · simp only [List.map_cons, destroyAll, hc, Outcome.ok_bind]; exact h1
    · intro y hy z hz
      rcases List.mem_cons.mp hy with rfl | hy
      · rw [ha] at hz; injection hz with hz; subst hz
        rw [h5 a (fun y hy hh => hd.1 y hy (by rw [ha, hh]))]
        simp [Heap.set]
      · exact h4 y hy z hz
    · intro z hz
      rw [h5 z (fun y hy => hz y (List.mem_cons_of_mem _ hy))]
      have : z ≠ a := by
        intro hh; subst hh; exact hz x (List.mem_cons_self ..) ha
      simp [Heap.set, this]

/-- Destroying all code writers gives the base heap back. -/
theorem destroyAll_spec {H h : Heap} (hH : HOk H) {P : Codes} (s : Holds H h P) :
    ∃ h', destroyAll h (P.map (·.1)) = .ok h' ∧ h'.blocks = H.blocks := by
  obtain ⟨h', h1, h2, h3, h4, h5⟩ := destroyAll_own s.hok (fun x hx => (s.own x hx).2) s.dist
  refine ⟨h', h1, ?_⟩
  funext a
  by_cases hx : ∃ x ∈ P, x.1.body.data = some a
  · obtain ⟨x, hx, hxa⟩ := hx
    rw [h4 x hx a hxa, hH a (s.addr x hx a hxa)]
  · have hx' : ∀ x ∈ P, x.1.body.data ≠ some a := fun x h6 h7 => hx ⟨x, h6, h7⟩
    rw [h5 a hx', s.rest a hx']

/-- The copy constructor on an owning buffer. -/
theorem copyCtor_own (e : BB.Env) {h b l} (o : Own h b l) (ho : HOk h) :
    (∃ h', copyCtor e h b = .ok (h', none) ∧ h'.blocks = h.blocks ∧ h'.next = h.next ∧ ¬ Kind e) ∨
    (∃ h' c, copyCtor e h b = .ok (h', some c) ∧ c.data = some h.next ∧ h'.next = h.next + 1 ∧ HOk h' ∧
      Own h' c l ∧ (∀ a, a ≠ h.next → h'.blocks a = h.blocks a) ∧ (Tight b → Tight c)) := by
  unfold copyCtor
  have hsz := o.sz
  have hpos := o.pos
  have hlt := o.lt
  rcases malloc_spec e ho b.capa with ⟨h', hm, hb, hn⟩ | ⟨h', hm, -, hn, ho', ⟨k, hk, hlen⟩, hf⟩
  · left
    rw [hm]
    refine ⟨h', rfl, hb, hn, fun kd => ?_⟩
    have := refuses_kind kd (malloc_refused hm)
    omega
  · right
    rw [hm]
    simp only
    have o' : Own h' b l := o.same (by omega) (fun a ha => by
      obtain ⟨a', k', hd, hlt', -⟩ := o.ptr
      rw [hd] at ha; injection ha with ha
      exact hf a (by omega))
    have hload : load h' b.data 0 b.size = .ok l := by
      rw [load_ok o'.good (by omega)]
      have := o'.content
      simp only [content_eq] at this
      simp [this]
    have hl := o.size
    rw [hload]
    simp only [Outcome.ok_bind]
    have hfresh : Own h' ⟨some h.next, 0, b.capa⟩ [] :=
      ⟨⟨h.next, k, rfl, by omega, hk, hlen, rfl⟩, Nat.zero_le _, hpos, hlt⟩
    obtain ⟨h2, hst, hs2, o2⟩ := store_own hfresh ho' (src := l) (by simp only; omega)
    simp only [Nat.zero_add, List.nil_append] at hst hs2 o2
    rw [hst]
    simp only [Outcome.ok_bind, Outcome.pure_eq]
    rw [hl] at hs2 o2
    have hn2 : h2.next = h'.next := by
      unfold store at hst
      split at hst
      · injection hst with hst; rw [hst]
      · simp only [hk] at hst
        split at hst
        · injection hst with hst; rw [← hst]; rfl
        · cases hst
    refine ⟨h2, _, rfl, rfl, by omega, hs2.hok, o2, ?_, fun t => t⟩
    intro a ha
    have h1 : (some h.next : Option Nat) ≠ some a := by
      intro hh; injection hh with hh; exact ha hh.symm
    rw [hs2.frame a h1 h1, hf a ha]

/-- Copying all code writers: either fails without a trace, or the copies own fresh blocks and nothing else
changes. -/
theorem copyAll_spec (e : WEnv) : ∀ {h : Heap} {P : Codes}, HOk h →
    (∀ x ∈ P, x.1.nregs = some x.2.nregs ∧ Own h x.1.body x.2.body) →
    (∃ h', copyAll e h (P.map (·.1)) = .ok (h', none) ∧ h'.blocks = h.blocks ∧ h.next ≤ h'.next ∧ HOk h' ∧
      ¬ Kind e.mem) ∨
    (∃ h' Q, copyAll e h (P.map (·.1)) = .ok (h', some (List.map (·.1) Q)) ∧
      List.map (·.2) Q = P.map (·.2) ∧ Holds h h' Q ∧
      ((∀ x ∈ P, Tight x.1.body) → ∀ x ∈ Q, Tight x.1.body)) := by
  intro h P
  induction P generalizing h with
  | nil =>
    intro ho _
    exact Or.inr ⟨h, [], rfl, rfl, ⟨ho, Nat.le_refl _, by simp, by simp, List.Pairwise.nil, fun _ _ => rfl⟩,
      by simp⟩
  | cons x P ih =>
    intro ho hP
    obtain ⟨hn, hown⟩ := hP x (List.mem_cons_self ..)
    simp only [List.map_cons, copyAll, hn]
    rcases copyCtor_own e.mem hown ho with ⟨h', hc, hb, hnx, hk⟩ | ⟨h1, c, hc, hcd, hnx, ho1, oc, hf, htc⟩
    · left
      refine ⟨h', by rw [hc]; rfl, hb, by omega, ?_, hk⟩
      intro z hz; rw [hb]; exact ho z (by omega)
    · rw [hc]
      simp only [Outcome.ok_bind]
      have hP1 : ∀ y ∈ P, y.1.nregs = some y.2.nregs ∧ Own h1 y.1.body y.2.body := by
        intro y hy
        obtain ⟨h2, h3⟩ := hP y (List.mem_cons_of_mem _ hy)
        refine ⟨h2, h3.same (by omega) ?_⟩
        intro z hz
        obtain ⟨a', k', hd, hlt', -⟩ := h3.ptr
        rw [hd] at hz; injection hz with hz
        exact hf z (by omega)
      rcases ih ho1 hP1 with ⟨h2, h3, hb, hnx2, ho2, hk⟩ | ⟨h2, Q, h3, hQ, hold, htQ⟩
      · left
        rw [h3]
        simp only [Outcome.ok_bind]
        obtain ⟨a, ha, hclr⟩ := clear_own (oc.same (h' := h2) hnx2 (fun z _ => by rw [hb]))
        rw [hclr]
        rw [hcd] at ha; injection ha with ha; subst ha
        refine ⟨_, rfl, ?_, ?_, ?_, hk⟩
        · funext z
          simp only [Heap.set]
          split
          · next hz => rw [hz]; exact (ho _ (Nat.le_refl _)).symm
          · next hz => rw [hb]; exact hf z hz
        · show h.next ≤ h2.next; omega
        · intro z hz
          simp only [Heap.set]
          split
          · rfl
          · exact ho2 z hz
      · right
        rw [h3]
        simp only [Outcome.ok_bind]
        have oc2 : Own h2 c x.2.body := oc.same hold.next (fun z hz => by
          apply hold.rest
          intro y hy hh
          have := hold.addr y hy z hh
          rw [hcd] at hz; injection hz with hz
          omega)
        refine ⟨h2, (⟨some x.2.nregs, c⟩, x.2) :: Q, rfl, by simp [hQ], ⟨hold.hok, ?_, ?_, ?_, ?_, ?_⟩, ?_⟩
        · have := hold.next; omega
        · intro y hy
          rcases List.mem_cons.mp hy with rfl | hy
          · exact ⟨rfl, oc2⟩
          · exact hold.own y hy
        · intro y hy a ha
          rcases List.mem_cons.mp hy with rfl | hy
          · have ha' : c.data = some a := ha
            rw [hcd] at ha'; injection ha' with ha'; omega
          · have := hold.addr y hy a ha; omega
        · refine List.pairwise_cons.mpr ⟨?_, hold.dist⟩
          intro y hy hh
          have hh' : c.data = y.1.body.data := hh
          rw [hcd] at hh'
          have := hold.addr y hy h.next hh'.symm
          omega
        · intro a ha
          have h4 : a ≠ h.next := by
            intro hh; subst hh
            exact ha (⟨some x.2.nregs, c⟩, x.2) (List.mem_cons_self ..) hcd
          rw [hold.rest a (fun y hy => ha y (List.mem_cons_of_mem _ hy)), hf a h4]
        · intro ht y hy
          rcases List.mem_cons.mp hy with rfl | hy
          · exact htc (ht x (List.mem_cons_self ..))
          · exact htQ (fun y hy => ht y (List.mem_cons_of_mem _ hy)) y hy

/-- One more owned buffer next to the code writers. -/
theorem Holds.push {H h P} (s : Holds H h P) {x : CodeW × CodeEntry} {h' : Heap}
    (ho : HOk h') (hn : h.next ≤ h'.next) (hx : x.1.nregs = some x.2.nregs) (hox : Own h' x.1.body x.2.body)
    (hxa : ∀ a, x.1.body.data = some a → h.next ≤ a)
    (hf : ∀ a, x.1.body.data ≠ some a → h'.blocks a = h.blocks a) : Holds H h' (P ++ [x]) := by
  have hHn := s.next
  have old : ∀ y ∈ P, ∀ a, y.1.body.data = some a → a < h.next := by
    intro y hy a ha
    obtain ⟨a', k', hd, hlt', -⟩ := (s.own y hy).2.ptr
    rw [hd] at ha; injection ha with ha; omega
  refine ⟨ho, by omega, ?_, ?_, ?_, ?_⟩
  · intro y hy
    rcases List.mem_append.mp hy with hy | hy
    · obtain ⟨h1, h2⟩ := s.own y hy
      refine ⟨h1, h2.same hn ?_⟩
      intro z hz
      apply hf
      intro hh
      have := hxa z hh
      have := old y hy z hz
      omega
    · rw [List.mem_singleton.mp hy]; exact ⟨hx, hox⟩
  · intro y hy a ha
    rcases List.mem_append.mp hy with hy | hy
    · exact s.addr y hy a ha
    · rw [List.mem_singleton.mp hy] at ha; have := hxa a ha; omega
  · rw [List.pairwise_append]
    refine ⟨s.dist, List.pairwise_singleton .., ?_⟩
    intro y hy z hz
    rw [List.mem_singleton.mp hz]
    obtain ⟨a, k', hd, hlt', -⟩ := (s.own y hy).2.ptr
    rw [hd]
    intro hh
    have := hxa a hh.symm
    omega
  · intro a ha
    rw [hf a (ha x (by simp))]
    exact s.rest a (fun y hy => ha y (List.mem_append_left _ hy))

/-- The last code writer's buffer is written to. -/
theorem Holds.fill {H h P} {x : CodeW × CodeEntry} (s : Holds H h (P ++ [x])) {h' : Heap} {b' : Buf}
    {n : U32} {l : List Byte} (st : Step h x.1.body h' b') (hob : Own h' b' l) (hH : HOk H) :
    Holds H h' (P ++ [(⟨some n, b'⟩, ⟨n, l⟩)]) := by
  have hHn := s.next
  have hdist := List.pairwise_append.mp s.dist
  have hne : ∀ y ∈ P, x.1.body.data ≠ y.1.body.data :=
    fun y hy hh => hdist.2.2 y hy x (by simp) hh.symm
  have hx : x ∈ P ++ [x] := by simp
  have hfr : ∀ y ∈ P, Own h' y.1.body y.2.body ∧ b'.data ≠ y.1.body.data := fun y hy =>
    (s.own y (List.mem_append_left _ hy)).2.frame st (hne y hy)
  refine ⟨st.hok, Nat.le_trans hHn st.next, ?_, ?_, ?_, ?_⟩
  · intro y hy
    rcases List.mem_append.mp hy with hy | hy
    · exact ⟨(s.own y (List.mem_append_left _ hy)).1, (hfr y hy).1⟩
    · rw [List.mem_singleton.mp hy]; exact ⟨rfl, hob⟩
  · intro y hy a ha
    rcases List.mem_append.mp hy with hy | hy
    · exact s.addr y (List.mem_append_left _ hy) a ha
    · rw [List.mem_singleton.mp hy] at ha
      have ha' : b'.data = some a := ha
      rcases st.ptr with q | ⟨c, hc, q⟩
      · exact s.addr x hx a (by rw [← q]; exact ha')
      · rw [q] at ha'; injection ha' with ha'; omega
  · rw [List.pairwise_append]
    refine ⟨hdist.1, List.pairwise_singleton .., ?_⟩
    intro y hy z hz
    rw [List.mem_singleton.mp hz]
    exact fun hh => (hfr y hy).2 hh.symm
  · intro a ha
    have ha' : b'.data ≠ some a := ha (⟨some n, b'⟩, ⟨n, l⟩) (by simp)
    by_cases hxa : x.1.body.data = some a
    · rw [st.dead a hxa ha', hH a (s.addr x hx a hxa)]
    · rw [st.frame a hxa ha']
      apply s.rest
      intro y hy
      rcases List.mem_append.mp hy with hy | hy
      · exact ha y (List.mem_append_left _ hy)
      · rw [List.mem_singleton.mp hy]; exact hxa

/-- The heap changed only in its request counter or in dead blocks. -/
theorem Holds.same {H h h' P} (s : Holds H h P) (hb : h'.blocks = h.blocks) (hn : h.next ≤ h'.next)
    (ho : HOk h') : Holds H h' P :=
  ⟨ho, Nat.le_trans s.next hn, fun x hx => ⟨(s.own x hx).1, (s.own x hx).2.same hn (fun a _ => by rw [hb])⟩,
    s.addr, s.dist, fun a ha => by rw [hb]; exact s.rest a ha⟩

/-- The new element of the vector. -/
def fresh (n : U32) (b : Buf) : CodeW × CodeEntry := (⟨some n, b⟩, ⟨n, []⟩)

theorem emplaceBack_spec (e : WEnv) {H h : Heap} {P : Codes} (hH : HOk H) (s : Holds H h P) :
    (∃ h', emplaceBack e h (P.map (·.1)) = .ok (h', none) ∧ Holds H h' P ∧
      (Kind e.mem → e.codeFails P.length = true)) ∨
    (∃ h' Q b, emplaceBack e h (P.map (·.1)) = .ok (h', some (List.map (·.1) Q, ⟨none, b⟩)) ∧
      List.map (·.2) Q = P.map (·.2) ∧ Tight b ∧ ∀ n, Holds H h' (Q ++ [fresh n b])) := by
  unfold emplaceBack
  simp only [List.length_map]
  by_cases hf : e.codeFails P.length = true
  · left
    exact ⟨h, by simp only [hf, if_true], s, fun _ => hf⟩
  · simp only [hf, Bool.false_eq_true, if_false]
    rcases ctor_own e.mem s.hok with ⟨h1, hc, hbl, hnx, hnk⟩ | ⟨h1, hc, hnx, ho1, oc, hfr⟩
    · left
      rw [hc]
      refine ⟨h1, rfl, s.same hbl (by omega) ?_, fun k => absurd k hnk⟩
      intro z hz; rw [hbl]; exact s.hok z (by omega)
    · rw [hc]
      simp only
      have hpush : ∀ n, Holds H h1 (P ++ [fresh n ⟨some h.next, 0, 64⟩]) := by
        intro n
        refine s.push ho1 (by omega) rfl oc ?_ ?_
        · intro a ha
          have ha' : (some h.next : Option Nat) = some a := ha
          injection ha' with ha'; omega
        · intro a ha
          have ha' : (some h.next : Option Nat) ≠ some a := ha
          exact hfr a (fun hh => ha' (by rw [hh]))
      have htight : Tight ⟨some h.next, 0, 64⟩ := by unfold Tight; simp only; omega
      by_cases hg : e.grows P.length = true
      · simp only [hg, if_true]
        have hownP : ∀ x ∈ P, x.1.nregs = some x.2.nregs ∧ Own h1 x.1.body x.2.body :=
          fun x hx => (hpush 0#32).own x (List.mem_append_left _ hx)
        rcases copyAll_spec e ho1 hownP with ⟨h2, h3, hb, hn2, ho2, hk⟩ | ⟨h2, Q, h3, hQ, hold, -⟩
        · left
          rw [h3]
          simp only [Outcome.ok_bind]
          obtain ⟨a, ha, hclr⟩ := clear_own (oc.same (h' := h2) hn2 (fun z _ => by rw [hb]))
          rw [hclr]
          have ha' : (some h.next : Option Nat) = some a := ha
          injection ha' with ha'; subst ha'
          refine ⟨_, rfl, s.same ?_ ?_ ?_, fun k => absurd k hk⟩
          · funext z
            simp only [Heap.set]
            split
            · next hz => rw [hz]; exact (s.hok _ (Nat.le_refl _)).symm
            · next hz => rw [hb]; exact hfr z hz
          · show h.next ≤ h2.next; omega
          · intro z hz
            simp only [Heap.set]
            split
            · rfl
            · exact ho2 z hz
        · right
          rw [h3]
          simp only [Outcome.ok_bind]
          -- the originals are still there
          have hP2 : ∀ x ∈ P, Own h2 x.1.body x.2.body := by
            intro x hx
            have hox := (hownP x hx).2
            refine hox.same hold.next ?_
            intro z hz
            obtain ⟨a', k', hd, hlt', -⟩ := hox.ptr
            rw [hd] at hz; injection hz with hz
            apply hold.rest
            intro y hy hh
            have := hold.addr y hy z hh
            omega
          obtain ⟨h4, h5, hn4, ho4, hdead, hrest⟩ := destroyAll_own hold.hok hP2 s.dist
          rw [h5]
          refine ⟨h4, Q, _, rfl, hQ, htight, fun n => ?_⟩
          have hPlt : ∀ x ∈ P, ∀ a, x.1.body.data = some a → a < h.next := by
            intro x hx a ha
            obtain ⟨a', k', hd, hlt', -⟩ := (s.own x hx).2.ptr
            rw [hd] at ha; injection ha with ha; omega
          have hnewO : Own h4 ⟨some h.next, 0, 64⟩ [] := by
            refine oc.same (by have := hold.next; omega) ?_
            intro z hz
            have hz' : (some h.next : Option Nat) = some z := hz
            injection hz' with hz'; subst hz'
            rw [hrest, hold.rest]
            · intro y hy hh; have := hold.addr y hy _ hh; omega
            · intro y hy hh; have := hPlt y hy _ hh; omega
          have hsn := s.next
          have hhn := hold.next
          refine ⟨ho4, by omega, ?_, ?_, ?_, ?_⟩
          · intro y hy
            rcases List.mem_append.mp hy with hy | hy
            · obtain ⟨h6, h7⟩ := hold.own y hy
              refine ⟨h6, h7.same (by omega) ?_⟩
              intro z hz
              have := hold.addr y hy z hz
              exact hrest z (fun x hx hh => by have := hPlt x hx z hh; omega)
            · rw [List.mem_singleton.mp hy]; exact ⟨rfl, hnewO⟩
          · intro y hy a ha
            rcases List.mem_append.mp hy with hy | hy
            · have := hold.addr y hy a ha; omega
            · rw [List.mem_singleton.mp hy] at ha
              have ha' : (some h.next : Option Nat) = some a := ha
              injection ha' with ha'; omega
          · rw [List.pairwise_append]
            refine ⟨hold.dist, List.pairwise_singleton .., ?_⟩
            intro y hy z hz
            rw [List.mem_singleton.mp hz]
            intro hh
            have := hold.addr y hy h.next hh
            omega
          · intro a ha
            have ha' : (some h.next : Option Nat) ≠ some a := ha (fresh n ⟨some h.next, 0, 64⟩) (by simp)
            have hne : a ≠ h.next := fun hh => ha' (by rw [hh])
            by_cases hx : ∃ x ∈ P, x.1.body.data = some a
            · obtain ⟨x, hx, hxa⟩ := hx
              rw [hdead x hx a hxa, hH a (s.addr x hx a hxa)]
            · have hx' : ∀ x ∈ P, x.1.body.data ≠ some a := fun x h6 h7 => hx ⟨x, h6, h7⟩
              rw [hrest a hx', hold.rest a (fun y hy => ha y (List.mem_append_left _ hy)), hfr a hne,
                s.rest a hx']
      · right
        simp only [hg, Bool.false_eq_true, if_false]
        exact ⟨h1, P, _, rfl, rfl, htight, hpush⟩

/-- Visiting the functions. -/
theorem acceptCodes_spec (e : WEnv) {H : Heap} (hH : HOk H) : ∀ {fs : List FuncNode} {h : Heap} {P : Codes},
    Holds H h P →
    ∃ h' Q threw, acceptCodes e h (P.map (·.1)) fs = .ok (h', List.map (·.1) Q, threw) ∧ Holds H h' Q ∧
      (threw = false → List.map (·.2) Q = P.map (·.2) ++ fs.map FuncNode.code) ∧
      (Kind e.mem → (∀ i, e.codeFails i = false) → (∀ f ∈ fs, f.code.body.length < 2^61) → threw = false) := by
  intro fs
  induction fs with
  | nil => intro h P s; exact ⟨h, P, false, rfl, s, fun _ => by simp, fun _ _ _ => rfl⟩
  | cons f fs ih =>
    intro h P s
    simp only [acceptCodes]
    rcases emplaceBack_spec e hH s with ⟨h1, h2, s1, hk⟩ | ⟨h1, Q, b, h2, hQ, ht, s1⟩
    · rw [h2]
      refine ⟨h1, P, true, rfl, s1, (fun hh => by cases hh), ?_⟩
      intro k hc _
      have := hk k
      rw [hc] at this; cases this
    · rw [h2]
      simp only [Outcome.ok_bind]
      have s2 := s1 f.nregs
      have ob : Own h1 b [] := (s2.own (fresh f.nregs b) (by simp)).2
      obtain ⟨r, hr, hs, ⟨l, ol, hl⟩, hkr⟩ :=
        Writes.insns (e := e) (R := []) f.insns h1 b [] s2.hok (by intro c hc; cases hc) ob
          (by intro c hc; cases hc)
      rw [hr]
      simp only [Outcome.ok_bind]
      have s3 : Holds H r.heap (Q ++ [(⟨some f.nregs, r.buf⟩, ⟨f.nregs, l⟩)]) := Holds.fill s2 hs ol hH
      have hmap : List.map (·.1) Q ++ [(⟨some f.nregs, r.buf⟩ : CodeW)] =
          List.map (·.1) (Q ++ [((⟨some f.nregs, r.buf⟩, ⟨f.nregs, l⟩) : CodeW × CodeEntry)]) := by simp
      cases htr : r.threw
      · simp only [Bool.false_eq_true, if_false]
        rw [hmap]
        obtain ⟨h', Q', threw, h4, s4, h5, h6⟩ := ih s3
        refine ⟨h', Q', threw, h4, s4, ?_, ?_⟩
        · intro hh
          rw [h5 hh, List.map_append, hQ]
          have : l = (f.insns.map writeInsn).flatten := by rw [hl htr]; rfl
          simp [FuncNode.code, this]
        · intro k hc hf
          exact h6 k hc (fun g hg => hf g (List.mem_cons_of_mem _ hg))
      · simp only [if_true, Outcome.pure_eq]
        rw [hmap]
        refine ⟨r.heap, _, true, rfl, s3, (fun hh => by cases hh), ?_⟩
        intro k hc hf
        have h7 := hf f (List.mem_cons_self ..)
        have := (hkr k (by simp only [List.length_nil, Nat.zero_add]; exact h7) ht).1
        rw [htr] at this; cases this

/-- `shrink_to_fit` of an owning, non-empty buffer inside `release_span`. -/
theorem releaseSpan_own (e : BB.Env) {h b l} (o : Own h b l) (ho : HOk h) (hne : l ≠ []) :
    (∃ w, releaseSpan e h b = .trap w ∧ ¬ Kind e) ∨
    (∃ h' p, releaseSpan e h b = .ok (h', some p, l.length, ⟨none, 0, 0⟩) ∧ h'.blocks p = some l ∧
      (b.data = some p ∨ h.next ≤ p) ∧ p < h'.next ∧ h.next ≤ h'.next ∧
      (∀ x, x ≠ p → b.data ≠ some x → h'.blocks x = h.blocks x) ∧
      (∀ x, x ≠ p → b.data = some x → h'.blocks x = none) ∧ HOk h') := by
  have hsz := o.size
  have hlen : b.size ≠ 0 := by
    intro hh; apply hne; rw [hh] at hsz; exact List.length_eq_zero_iff.mp hsz
  have hcap := o.sz
  obtain ⟨a, k, hd, hlt, hb, hk, hcon⟩ := o.ptr
  unfold releaseSpan shrinkToFit
  obtain ⟨r, hr, hc⟩ := resizeCapacity_spec e o.good ho (n := b.size) (Or.inl hlen)
  rw [hr]
  simp only [Outcome.ok_bind]
  cases ht : r.threw
  · right
    simp only [Bool.false_eq_true, if_false, Outcome.pure_eq]
    rcases hc with ⟨hbuf, hbl, hnx, hthr⟩ | ⟨-, hn0, hn63, hbuf, hnx, ⟨ext, hext, hlen'⟩, hfr, hdead⟩
    · refine ⟨r.heap, a, by rw [hbuf, hd, hsz], ?_, Or.inl hd, by omega, by omega, ?_, ?_, ?_⟩
      · rw [hbl, hb]
        have h5 := hthr ht
        rw [← hcon, List.take_of_length_le (by omega)]
      · intro x _ _; rw [hbl]
      · intro x h1 h2; rw [hd] at h2; injection h2 with h2; exact absurd h2.symm h1
      · intro x hx; rw [hbl]; exact ho x (by omega)
    · have hblk : blk h b = k := by simp [blk, hd, hb]
      refine ⟨r.heap, h.next, by rw [hbuf, hsz], ?_, Or.inr (Nat.le_refl _), by omega, by omega, ?_, ?_, ?_⟩
      · rw [hext]
        rw [hblk, List.length_append, List.length_take] at hlen'
        have : ext = [] := List.length_eq_zero_iff.mp (by omega)
        rw [this, List.append_nil, hblk, hcon]
      · intro x h1 h2; exact hfr x h1 h2
      · intro x _ h2; exact hdead x h2
      · intro x hx
        rw [hfr x (by omega) ?_]
        · exact ho x (by omega)
        · intro hh; rw [hd] at hh; injection hh with hh; omega
  · left
    simp only [if_true]
    refine ⟨_, rfl, fun kd => ?_⟩
    have := refuses_kind kd (resizeCapacity_threw hr ht)
    have := o.lt
    omega

theorem writeModule_ne_nil (m : WModule) : writeModule m ≠ [] := by
  intro h
  have := congrArg List.length h
  simp [writeModule, leU32] at this

/-- `finalize` next to the code writers. -/
theorem finalize_spec (e : WEnv) {H h : Heap} {P : Codes} (s : Holds H h P)
    (ts : List FuncType) (fs : List U32) :
    let out := writeModule ⟨ts, fs, P.map (·.2)⟩
    (∃ w, finalize e h ts fs (P.map (·.1)) = .trap w ∧ ¬ Kind e.mem) ∨
    (∃ h', finalize e h ts fs (P.map (·.1)) = .ok (h', none) ∧ Holds H h' P ∧
      ¬ (Kind e.mem ∧ out.length < 2^61)) ∨
    (∃ h' p, finalize e h ts fs (P.map (·.1)) = .ok (h', some (some p, out.length)) ∧
      h'.blocks p = some out ∧ h.next ≤ p ∧ (∀ a, a ≠ p → h'.blocks a = h.blocks a) ∧
      HOk h' ∧ h.next ≤ h'.next) := by
  intro out
  unfold finalize
  rcases ctor_own e.mem s.hok with ⟨h1, hc, hbl, hnx, hnk⟩ | ⟨h1, hc, hnx, ho1, oc, hfr⟩
  · right; left
    rw [hc]
    refine ⟨h1, rfl, s.same hbl (by omega) ?_, fun k => hnk k.1⟩
    intro z hz; rw [hbl]; exact s.hok z (by omega)
  · rw [hc]
    simp only
    have hpush : Holds H h1 (P ++ [fresh 0#32 ⟨some h.next, 0, 64⟩]) := by
      refine s.push ho1 (by omega) rfl oc ?_ ?_
      · intro a ha
        have ha' : (some h.next : Option Nat) = some a := ha
        injection ha' with ha'; omega
      · intro a ha
        have ha' : (some h.next : Option Nat) ≠ some a := ha
        exact hfr a (fun hh => ha' (by rw [hh]))
    have hHas : Has h1 P.bufs := by
      intro c hc'
      obtain ⟨x, hx, rfl⟩ := List.mem_map.mp hc'
      exact (hpush.own x (List.mem_append_left _ hx)).2
    have hDis : Disj ⟨some h.next, 0, 64⟩ P.bufs := by
      intro c hc' hh
      obtain ⟨x, hx, rfl⟩ := List.mem_map.mp hc'
      obtain ⟨a', k', hd, hlt', -⟩ := (s.own x hx).2.ptr
      simp only at hh
      rw [hd] at hh; injection hh with hh; omega
    obtain ⟨r, hr, hs, ⟨l, ol, hl⟩, hk⟩ :=
      Writes.module (e := e) ts fs P (fun x hx => (s.own x hx).1) h1 _ [] ho1 hHas oc hDis
    rw [hr]
    simp only [Outcome.ok_bind]
    have base : ∀ z, r.buf.data ≠ some z → r.heap.blocks z = h.blocks z := by
      intro z hz'
      by_cases hz2 : z = h.next
      · subst hz2
        rw [hs.dead _ rfl hz', s.hok _ (Nat.le_refl _)]
      · rw [hs.frame z (fun hh => hz2 (by injection hh with hh; exact hh.symm)) hz', hfr z hz2]
    have hbn : ∀ p, r.buf.data = some p → h.next ≤ p := by
      intro p hp
      rcases hs.ptr with q | ⟨c, hc', q⟩
      · rw [hp] at q; injection q with q; omega
      · rw [hp] at q; injection q with q; omega
    have hsn := hs.next
    cases ht : r.threw
    · simp only [Bool.false_eq_true, if_false]
      have hl' : l = out := by rw [hl ht]; rfl
      subst hl'
      rcases releaseSpan_own e.mem ol hs.hok (writeModule_ne_nil _) with
        ⟨w, hw, hnk⟩ | ⟨h', p, hrel, hp, hpa, hpn, hn', hfr', hdead, ho'⟩
      · left; rw [hw]; exact ⟨w, rfl, hnk⟩
      · right; right
        rw [hrel]
        refine ⟨h', p, rfl, hp, ?_, ?_, ho', by omega⟩
        · rcases hpa with q | q
          · exact hbn p q
          · omega
        · intro a ha
          by_cases hra : r.buf.data = some a
          · rw [hdead a ha hra, s.hok a (hbn a hra)]
          · rw [hfr' a ha hra, base a hra]
    · right; left
      simp only [if_true]
      obtain ⟨p, hp, hclr⟩ := clear_own ol
      rw [hclr]
      refine ⟨_, rfl, s.same ?_ ?_ ?_, ?_⟩
      · funext z
        simp only [Heap.set]
        split
        · next hz => rw [hz]; exact (s.hok _ (hbn p hp)).symm
        · next hz => exact base z (by rw [hp]; intro hh; injection hh with hh; exact hz hh.symm)
      · show h.next ≤ r.heap.next; omega
      · intro z hz
        simp only [Heap.set]
        split
        · rfl
        · exact hs.hok z hz
      · intro ⟨kd, hsm⟩
        have := (hk kd (by simp only [List.length_nil, Nat.zero_add]; exact hsm)
          (by unfold Tight; simp only; omega)).1
        rw [ht] at this; cases this

end Ab.WH
