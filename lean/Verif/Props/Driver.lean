import Verif.Model.Driver
/-! C45, C53: the `ab` driver. -/
namespace Ab.Driver

/-! ### Specification -/

/-- Directory names joined with colons. -/
def joined : List Str → Str
  | [] => []
  | [d] => d
  | d :: ds => d ++ ':' :: joined ds

/-- `dirs` are the directories a search-path variable names, in order: none if it is unset or empty,
otherwise its colon-separated parts. -/
def Names (var : Option Str) (dirs : List Str) : Prop :=
  ((var = none ∨ var = some []) ∧ dirs = []) ∨
  (∃ s, var = some s ∧ s ≠ [] ∧ dirs ≠ [] ∧ joined dirs = s ∧ ∀ d ∈ dirs, ':' ∉ d)

/-- Directory `d` contains an entry `name`. -/
def World.Has (w : World) (d name : Str) : Prop := ∃ l, w.dir d = .names l ∧ name ∈ l

/-- `r` is the first of the directories that contains `name`, or `none` if none does. -/
def FirstWith (w : World) (name : Str) (dirs : List Str) (r : Option Str) : Prop :=
  (∃ before d after, dirs = before ++ d :: after ∧ (∀ x ∈ before, ¬ w.Has x name) ∧ w.Has d name ∧
    r = some (d ++ "/".toList ++ name)) ∨
  ((∀ x ∈ dirs, ¬ w.Has x name) ∧ r = none)

/-- `pathconf` works on every directory that can be opened. -/
def World.Sane (w : World) : Prop := ∀ d, w.dir d ≠ .noLimit

/-! ### Proofs -/

theorem findInDir_spec {w : World} (hw : w.Sane) (name d : Str) :
    (w.Has d name ∧ findInDir w name d = .ok (some (d ++ '/' :: name))) ∨
    (¬ w.Has d name ∧ findInDir w name d = .ok none) := by
  unfold findInDir
  cases h : w.dir d with
  | absent => right; exact ⟨(by rintro ⟨l, hl, _⟩; rw [h] at hl; cases hl), rfl⟩
  | noLimit => exact absurd h (hw d)
  | names l =>
    by_cases hm : name ∈ l
    · left; exact ⟨⟨l, h, hm⟩, by simp only [hm, if_true]⟩
    · right
      refine ⟨?_, by simp only [hm, if_false]⟩
      rintro ⟨l', hl, hm'⟩
      rw [h] at hl
      injection hl with hl; subst hl
      exact hm hm'

theorem takeWhile_part {d rest : Str} (h : ':' ∉ d) :
    ((d ++ ':' :: rest).takeWhile (· ≠ ':')).length = d.length := by
  induction d with
  | nil => simp
  | cons c d ih =>
    have h1 : c ≠ ':' := fun e => h (by simp [e])
    have h2 : ':' ∉ d := fun e => h (by simp [e])
    simp only [List.cons_append, List.takeWhile_cons]
    rw [if_pos (by simp [h1])]
    simp only [List.length_cons, ih h2]

theorem takeWhile_last {d : Str} (h : ':' ∉ d) : (d.takeWhile (· ≠ ':')).length = d.length := by
  induction d with
  | nil => simp
  | cons c d ih =>
    have h1 : c ≠ ':' := fun e => h (by simp [e])
    have h2 : ':' ∉ d := fun e => h (by simp [e])
    rw [List.takeWhile_cons, if_pos (by simp [h1])]
    simp only [List.length_cons, ih h2]

theorem joined_cons_cons (d e : Str) (ds : List Str) : joined (d :: e :: ds) = d ++ ':' :: joined (e :: ds) := rfl

theorem searchLoop_spec {w : World} (hw : w.Sane) (name : Str) (dirs : List Str) (hne : dirs ≠ [])
    (hd : ∀ d ∈ dirs, ':' ∉ d) (pre : Str) (fuel b : Nat) (hb : b < (pre ++ joined dirs).length)
    (hf : dirs.length + 1 ≤ fuel) :
    ∃ r, searchLoop w name (pre ++ joined dirs) fuel pre.length b = .ok r ∧ FirstWith w name dirs r := by
  induction dirs generalizing pre fuel b with
  | nil => exact absurd rfl hne
  | cons d ds ih =>
    obtain ⟨fuel, rfl⟩ : ∃ f, fuel = f + 1 := ⟨fuel - 1, by simp at hf; omega⟩
    have hdd := hd d (by simp)
    rw [searchLoop, if_pos hb]
    -- the directory looked at
    have hsep : findSep (pre ++ joined (d :: ds)) ':' pre.length = pre.length + d.length := by
      unfold findSep
      rw [List.drop_left]
      cases ds with
      | nil => rw [joined, takeWhile_last hdd]
      | cons e ds => rw [joined_cons_cons, takeWhile_part hdd]
    have hdir : ((pre ++ joined (d :: ds)).drop pre.length).take (pre.length + d.length - pre.length) = d := by
      rw [List.drop_left, Nat.add_sub_cancel_left]
      cases ds with
      | nil => rw [joined]; exact List.take_length
      | cons e ds => rw [joined_cons_cons]; exact List.take_left
    simp only [hsep, hdir]
    rcases findInDir_spec hw name d with ⟨h1, h2⟩ | ⟨h1, h2⟩
    · rw [h2]
      exact ⟨_, rfl, Or.inl ⟨[], d, ds, rfl, by simp, h1, by simp⟩⟩
    · rw [h2]
      simp only
      cases ds with
      | nil =>
        obtain ⟨fuel, rfl⟩ : ∃ f, fuel = f + 1 := ⟨fuel - 1, by simp at hf; omega⟩
        refine ⟨none, ?_, Or.inr ⟨by simpa using h1, rfl⟩⟩
        rw [searchLoop, if_neg]
        rw [joined, List.length_append]; omega
      | cons e ds =>
        have e1 : pre ++ joined (d :: e :: ds) = (pre ++ d ++ [':']) ++ joined (e :: ds) := by
          rw [joined_cons_cons]; simp
        obtain ⟨r, hr, hfw⟩ := ih (by simp) (fun x hx => hd x (by simp at hx ⊢; right; exact hx)) (pre ++ d ++ [':']) fuel
          (pre.length + d.length) (by simp) (by simp at hf ⊢; omega)
        rw [← e1] at hr
        rw [show (pre ++ d ++ [':']).length = pre.length + d.length + 1 by simp; omega] at hr
        refine ⟨r, hr, ?_⟩
        rcases hfw with ⟨bf, x, af, h3, h4, h5, h6⟩ | ⟨h3, h4⟩
        · refine Or.inl ⟨d :: bf, x, af, by rw [h3]; rfl, ?_, h5, h6⟩
          intro y hy
          rcases List.mem_cons.mp hy with rfl | hy
          · exact h1
          · exact h4 y hy
        · refine Or.inr ⟨?_, h4⟩
          intro y hy
          rcases List.mem_cons.mp hy with rfl | hy
          · exact h1
          · exact h3 y hy

theorem length_le_joined : ∀ (dirs : List Str), dirs.length ≤ (joined dirs).length + 1
  | [] => by simp
  | [d] => by simp
  | d :: e :: ds => by
    have := length_le_joined (e :: ds)
    rw [joined_cons_cons]
    simp only [List.length_cons, List.length_append] at *
    omega

theorem findInEnv_spec {w : World} (hw : w.Sane) (name : Str) (var : Option Str) (dirs : List Str)
    (h : Names var dirs) : ∃ r, findInEnv w name var = .ok r ∧ FirstWith w name dirs r := by
  rcases h with ⟨h | h, rfl⟩ | ⟨s, rfl, hs, hne, rfl, hd⟩
  · subst h; exact ⟨none, rfl, Or.inr ⟨by simp, rfl⟩⟩
  · subst h; exact ⟨none, rfl, Or.inr ⟨by simp, rfl⟩⟩
  · unfold findInEnv findInSearchPath
    have hlen : (joined dirs).length ≠ 0 := fun h => hs (List.length_eq_zero_iff.mp h)
    simp only [hlen, if_false]
    have := searchLoop_spec hw name dirs hne hd [] ((joined dirs).length + 2) 0
      (by simpa using Nat.pos_of_ne_zero hlen) (by have := length_le_joined dirs; omega)
    simpa using this

theorem firstWith_append_none {w : World} {name : Str} {l m : List Str} {r : Option Str}
    (h1 : FirstWith w name l none) (h2 : FirstWith w name m r) : FirstWith w name (l ++ m) r := by
  have hl : ∀ x ∈ l, ¬ w.Has x name := by
    rcases h1 with ⟨_, _, _, _, _, _, h⟩ | ⟨h, _⟩
    · cases h
    · exact h
  rcases h2 with ⟨bf, d, af, h3, h4, h5, h6⟩ | ⟨h3, h4⟩
  · refine Or.inl ⟨l ++ bf, d, af, by rw [h3]; simp, ?_, h5, h6⟩
    intro x hx
    rcases List.mem_append.mp hx with hx | hx
    · exact hl x hx
    · exact h4 x hx
  · refine Or.inr ⟨?_, h4⟩
    intro x hx
    rcases List.mem_append.mp hx with hx | hx
    · exact hl x hx
    · exact h3 x hx

theorem firstWith_append_some {w : World} {name : Str} {l m : List Str} {r : Str}
    (h1 : FirstWith w name l (some r)) : FirstWith w name (l ++ m) (some r) := by
  rcases h1 with ⟨bf, d, af, h3, h4, h5, h6⟩ | ⟨_, h⟩
  · exact Or.inl ⟨bf, d, af ++ m, by rw [h3]; simp, h4, h5, h6⟩
  · cases h

/-- The directories of `AB_HOME`. -/
def homeDirs (w : World) : List Str := match w.abHome with
  | some h => [h ++ "/bin".toList]
  | none => []

/-- C45, the search: for every environment and file system (on which `pathconf` works), the file chosen is
`ab-<command>` in the first directory that has an entry of that name, over the directories of AB_PATH, then
AB_HOME/bin, then those of PATH, each left to right; none is chosen exactly when no directory has one. Missing:
the entry need not be executable. -/
theorem C45_first_directory_partial (w : World) (hw : w.Sane) (cmd : Str) (ap pp : List Str)
    (ha : Names w.abPath ap) (hp : Names w.path pp) :
    ∃ r, findCmd w cmd = .ok r ∧ FirstWith w ("ab-".toList ++ cmd) (ap ++ homeDirs w ++ pp) r := by
  have hn : exeName cmd = "ab-".toList ++ cmd := rfl
  obtain ⟨r1, e1, f1⟩ := findInEnv_spec hw (exeName cmd) w.abPath ap ha
  obtain ⟨r3, e3, f3⟩ := findInEnv_spec hw (exeName cmd) w.path pp hp
  have h2 : ∃ r2, findInHome w (exeName cmd) = .ok r2 ∧ FirstWith w (exeName cmd) (homeDirs w) r2 := by
    unfold homeDirs findInHome
    cases w.abHome with
    | none => exact ⟨none, rfl, Or.inr ⟨by simp, rfl⟩⟩
    | some h =>
      rcases findInDir_spec hw (exeName cmd) (h ++ ['/', 'b', 'i', 'n']) with ⟨h1, h2⟩ | ⟨h1, h2⟩
      · exact ⟨_, h2, Or.inl ⟨[], _, [], rfl, by simp, h1, by simp⟩⟩
      · exact ⟨_, h2, Or.inr ⟨by simpa using h1, rfl⟩⟩
  obtain ⟨r2, e2, f2⟩ := h2
  unfold findCmd
  rw [← hn]
  simp only
  rw [e1]
  cases r1 with
  | some r => exact ⟨_, rfl, firstWith_append_some (firstWith_append_some f1)⟩
  | none =>
    simp only [Outcome.ok_bind]
    rw [e2]
    cases r2 with
    | some r => exact ⟨_, rfl, firstWith_append_some (firstWith_append_none f1 f2)⟩
    | none => exact ⟨_, e3, firstWith_append_none (firstWith_append_none f1 f2) f3⟩

/-- Every search path names some directories. -/
theorem names_exists (var : Option Str) : ∃ dirs, Names var dirs := by
  cases var with
  | none => exact ⟨[], Or.inl ⟨Or.inl rfl, rfl⟩⟩
  | some s =>
    by_cases h : s = []
    · exact ⟨[], Or.inl ⟨Or.inr (by rw [h]), rfl⟩⟩
    · have : ∃ dirs : List Str, dirs ≠ [] ∧ joined dirs = s ∧ ∀ d ∈ dirs, ':' ∉ d := by
        clear h
        induction s with
        | nil => exact ⟨[[]], by simp, rfl, by simp⟩
        | cons c s ih =>
          obtain ⟨dirs, h1, h2, h3⟩ := ih
          by_cases hc : c = ':'
          · refine ⟨[] :: dirs, by simp, ?_, ?_⟩
            · cases dirs with
              | nil => exact absurd rfl h1
              | cons d ds => rw [joined_cons_cons, h2, hc]; rfl
            · intro d hd
              rcases List.mem_cons.mp hd with rfl | hd
              · simp
              · exact h3 d hd
          · cases dirs with
            | nil => exact absurd rfl h1
            | cons d ds =>
              refine ⟨(c :: d) :: ds, by simp, ?_, ?_⟩
              · rw [← h2]; cases ds <;> rfl
              · intro x hx
                rcases List.mem_cons.mp hx with rfl | hx
                · have := h3 d (by simp)
                  simp only [List.mem_cons, not_or]; exact ⟨fun e => hc e.symm, this⟩
                · exact h3 x (by simp [hx])
      obtain ⟨dirs, h1, h2, h3⟩ := this
      exact ⟨dirs, Or.inr ⟨s, rfl, h, h1, h2, h3⟩⟩

/-- C45, the driver: it fails to find the command exactly when no directory has an entry of the name. -/
theorem C45_not_found_partial (w : World) (hw : w.Sane) (cmd : Str) (ap pp : List Str)
    (ha : Names w.abPath ap) (hp : Names w.path pp) (args : List Str) :
    runCmd w cmd args = .ok (.notFound cmd) ↔
      ∀ d ∈ ap ++ homeDirs w ++ pp, ¬ w.Has d ("ab-".toList ++ cmd) := by
  obtain ⟨r, h1, h2⟩ := C45_first_directory_partial w hw cmd ap pp ha hp
  unfold runCmd
  rw [h1]
  rcases h2 with ⟨bf, d, af, h3, h4, h5, h6⟩ | ⟨h3, h4⟩
  · subst h6
    constructor
    · intro h
      simp only [Outcome.ok_bind] at h
      split at h <;> cases h
    · intro h
      exact absurd h5 (h d (by rw [h3]; simp))
  · subst h4
    exact ⟨fun _ => h3, fun _ => rfl⟩

/-- A world with three directories; `/b` has a file `ab-edn` that can be run, `/a` one that cannot. -/
def demo : World where
  abPath := none
  abHome := none
  path := some "/x:/a:/b".toList
  dir d := if d = "/a".toList then .names [".".toList, "ab-edn".toList]
    else if d = "/b".toList then .names ["ab-edn".toList, "ab-asm".toList] else .absent
  exec p := p = "/b/ab-edn".toList ∨ p = "/b/ab-asm".toList

/-- The hypotheses hold of it, and `ab asm f` runs `/b/ab-asm`. -/
example : demo.Sane ∧ Names demo.abPath [] ∧ Names demo.path ["/x".toList, "/a".toList, "/b".toList] ∧
    main demo ["asm".toList, "f".toList] = .ok (.became "/b/ab-asm".toList ["asm".toList, "f".toList]) := by
  refine ⟨?_, Or.inl ⟨Or.inl rfl, rfl⟩, Or.inr ⟨_, rfl, by decide, by decide, by decide, by decide⟩, by decide +kernel⟩
  intro d
  simp only [demo]
  split
  · simp
  · split <;> simp

/-- C45 fails: the first entry of the name is chosen even if it cannot be executed, and the executable in a
later directory is not run. -/
theorem C45_negation : demo.exec "/b/ab-edn".toList = true ∧ demo.Has "/b".toList "ab-edn".toList ∧
    main demo ["edn".toList] = .ok (.execFailed "/a/ab-edn".toList) :=
  ⟨by decide +kernel, ⟨_, rfl, by decide⟩, by decide +kernel⟩

/-- C45, directories without a limit for names: the search ends the process there. (This is what `Sane` excludes.) -/
theorem C45_no_limit_partial (w : World) (cmd home : Str) (h1 : w.abPath = none) (h2 : w.abHome = some home)
    (h3 : w.dir (home ++ "/bin".toList) = .noLimit) : findCmd w cmd = .trap "name_max != -1" := by
  have e : findInHome w (exeName cmd) = .trap "name_max != -1" := by
    unfold findInHome findInDir
    rw [h2]
    simp only
    rw [show home ++ ['/', 'b', 'i', 'n'] = home ++ "/bin".toList from rfl, h3]
  unfold findCmd findInEnv
  rw [h1]
  simp only [Outcome.ok_bind]
  rw [e]
  rfl

example : findCmd { demo with abPath := none, abHome := some "/h".toList, dir := fun _ => .noLimit } "x".toList = .trap "name_max != -1" :=
  C45_no_limit_partial _ _ "/h".toList rfl rfl rfl

/-! ### C53 -/

/-- C53, without `--`: for every world and command line. Help and version, first, win; no argument is a
missing command; an unknown first word starting with `-` is an error; and otherwise the first word is the
command, run with the words from itself on. Missing: `--`. -/
theorem C53_dispatch_partial (w : World) (args : List Str) :
    (args = [] → main w args = .ok .missing) ∧
    (∀ rest, args = "-h".toList :: rest ∨ args = "--help".toList :: rest → main w args = .ok .usage) ∧
    (∀ rest, args = "-v".toList :: rest ∨ args = "--version".toList :: rest → main w args = .ok .version) ∧
    (∀ o rest, args = ('-' :: o) :: rest → o ∉ ["h".toList, "-help".toList, "v".toList, "-version".toList, "-".toList] →
      main w args = .ok (.badOption ('-' :: o))) ∧
    (∀ cmd rest, args = cmd :: rest → cmd.head? ≠ some '-' → main w args = runCmd w cmd (cmd :: rest)) := by
  refine ⟨?_, ?_, ?_, ?_, ?_⟩
  · rintro rfl; rfl
  · rintro rest (rfl | rfl) <;> rfl
  · rintro rest (rfl | rfl) <;> rfl
  · rintro o rest rfl ho
    simp only [List.mem_cons, List.not_mem_nil, or_false, not_or] at ho
    obtain ⟨h1, h2, h3, h4, h5⟩ := ho
    unfold main
    simp only
    rw [if_neg (by rintro (h | h) <;> injection h with _ h <;> contradiction),
      if_neg (by rintro (h | h) <;> injection h with _ h <;> contradiction),
      if_neg (by intro h; injection h with _ h; contradiction), if_pos (by rfl)]
  · rintro cmd rest rfl hc
    unfold main
    simp only
    rw [if_neg (by rintro (h | h) <;> subst h <;> exact hc rfl),
      if_neg (by rintro (h | h) <;> subst h <;> exact hc rfl),
      if_neg (by intro h; subst h; exact hc rfl), if_neg hc]

/-- `--` picks the next word as the command but passes `--` on as the program's own name: for every command
found and executable. -/
theorem C53_separator_partial (w : World) (cmd : Str) (rest : List Str) (bin : Str)
    (h1 : findCmd w cmd = .ok (some bin)) (h2 : w.exec bin = true) :
    main w ("--".toList :: cmd :: rest) = .ok (.became bin ("--".toList :: cmd :: rest)) := by
  show runCmd w cmd _ = _
  unfold runCmd
  rw [h1]
  simp only [Outcome.ok_bind, h2, if_true]
  rfl

/-- C53 fails: `ab -- asm f` does not run the command as `ab asm f` does. -/
theorem C53_negation :
    main demo ["asm".toList, "f".toList] = .ok (.became "/b/ab-asm".toList ["asm".toList, "f".toList]) ∧
    main demo ["--".toList, "asm".toList, "f".toList] =
      .ok (.became "/b/ab-asm".toList ["--".toList, "asm".toList, "f".toList]) := by decide +kernel

end Ab.Driver
