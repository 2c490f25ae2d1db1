import Verif.Model.Lock
/-! C80: the read-write lock. -/
namespace Ab.LockM

/-- A guard for exclusive access excludes every other one. -/
def Exclusive (gs : List Guard) : Prop :=
  gs.Pairwise (fun g h => g.access = .shared ∧ h.access = .shared)

/-- C80 fails for every combination of guards: whatever guards – exclusive or not, of whatever threads – there can be a
moment at which exactly they are alive. -/
theorem C80_any_guards_together_partial (gs : List Guard) : ∃ s, Reachable s ∧ s.guards = gs := by
  suffices h : Reachable ⟨Lock.init, gs⟩ from ⟨_, h, rfl⟩
  induction gs with
  | nil => exact .init
  | cons g gs ih => exact .step ih (.guard g rfl)

/-- C80, what holds instead: in every reachable state nobody waits, every attempt succeeds, the lock does not know of any
guard and says that it is not locked. -/
theorem C80_never_waits_partial (s : St) (h : Reachable s) (a : Access) :
    guard s.lock a = some s.lock ∧ tryGuard s.lock a = some s.lock ∧ s.lock = Lock.init ∧ s.lock.isLocked a = false := by
  have hl : s.lock = Lock.init := by
    induction h with
    | init => rfl
    | step _ hs ih =>
      cases hs with
      | guard g hg => injection hg with hg; rw [← hg]; exact ih
      | tryGuard g hg => injection hg with hg; rw [← hg]; exact ih
      | unguard g _ => exact ih
  exact ⟨rfl, rfl, hl, by cases a <;> rfl⟩

/-- A sequence of calls of `lock` (`true`) and `unlock`. -/
def calls : Lock → List (Bool × Access) → Outcome Lock
  | l, [] => .ok l
  | l, (b, a) :: cs => do
    let l ← if b then l.lock a else l.unlock a
    calls l cs

/-- How often `lock` was called for the access minus how often `unlock` was. -/
def balance (a : Access) : List (Bool × Access) → Int
  | [] => 0
  | (b, c) :: cs => balance a cs + (if c = a then if b then 1 else -1 else 0)

theorem calls_spec : ∀ (cs : List (Bool × Access)) (l : Lock), l.sharedCount.natAbs + cs.length < 2^31 →
    l.exclusiveCount.natAbs + cs.length < 2^31 →
    calls l cs = .ok ⟨l.sharedCount + balance .shared cs, l.exclusiveCount + balance .exclusive cs⟩
  | [], l, _, _ => by simp [calls, balance]
  | (b, a) :: cs, l, h1, h2 => by
    simp only [List.length_cons] at h1 h2
    have key : ∀ v : Int, v.natAbs < 2^31 → int v = .ok v := by
      intro v hv; unfold int; rw [if_pos (by omega)]
    cases b <;> cases a <;>
      simp only [calls, Lock.lock, Lock.unlock, if_true, Bool.false_eq_true, if_false] <;>
      rw [key _ (by omega)] <;>
      simp only [Outcome.ok_bind, Outcome.pure_eq] <;>
      rw [calls_spec cs _ (by simp only; omega) (by simp only; omega)] <;>
      simp [balance] <;> omega

/-- C80, `lock` and `unlock`: up to two thousand million calls – from whatever threads, one after the other – never wait:
the counters count, so two threads can both be past `lock<EXCLUSIVE>`. -/
theorem C80_lock_counts_partial (cs : List (Bool × Access)) (h : cs.length < 2^31) :
    calls Lock.init cs = .ok ⟨balance .shared cs, balance .exclusive cs⟩ := by
  have := calls_spec cs Lock.init (by simpa [Lock.init] using h) (by simpa [Lock.init] using h)
  simpa [Lock.init] using this

/-- C80, `lock` called too often: from 2^31 calls for the same access on, undefined. -/
theorem C80_too_many_locks_partial (a : Access) (n : Nat) (rest : List (Bool × Access)) (h : 2^31 ≤ n) :
    (calls Lock.init (List.replicate n (true, a) ++ rest)).isUb = true := by
  have key : ∀ (k : Nat) (l : Lock) (rest : List (Bool × Access)), 
      (match a with | .shared => l.sharedCount | .exclusive => l.exclusiveCount) + (k : Int) = 2^31 →
      0 ≤ (match a with | .shared => l.sharedCount | .exclusive => l.exclusiveCount) → 0 < k →
      (calls l (List.replicate k (true, a) ++ rest)).isUb = true := by
    intro k
    induction k with
    | zero => intro l rest _ _ hk; omega
    | succ k ih =>
      intro l rest h1 h2 _
      rw [List.replicate_succ, List.cons_append, calls]
      cases a with
      | shared =>
        simp only at h1 h2 ih
        simp only [Lock.lock, if_true]
        by_cases hk : k = 0
        · have : int (l.sharedCount + 1) = .ub "signed overflow" := by unfold int; rw [if_neg (by omega)]
          rw [this]; rfl
        · have : int (l.sharedCount + 1) = .ok (l.sharedCount + 1) := by unfold int; rw [if_pos (by omega)]
          rw [this]
          simp only [Outcome.ok_bind, Outcome.pure_eq]
          exact ih ⟨l.sharedCount + 1, l.exclusiveCount⟩ rest (by simp only; omega) (by simp only; omega) (by omega)
      | exclusive =>
        simp only at h1 h2 ih
        simp only [Lock.lock, if_true]
        by_cases hk : k = 0
        · have : int (l.exclusiveCount + 1) = .ub "signed overflow" := by unfold int; rw [if_neg (by omega)]
          rw [this]; rfl
        · have : int (l.exclusiveCount + 1) = .ok (l.exclusiveCount + 1) := by unfold int; rw [if_pos (by omega)]
          rw [this]
          simp only [Outcome.ok_bind, Outcome.pure_eq]
          exact ih ⟨l.sharedCount, l.exclusiveCount + 1⟩ rest (by simp only; omega) (by simp only; omega) (by omega)
  have hn : n = 2^31 + (n - 2^31) := by omega
  rw [hn, ← List.replicate_append_replicate, List.append_assoc]
  exact key _ _ _ (by cases a <;> simp [Lock.init]) (by cases a <;> simp [Lock.init]) (by omega)

/-- C80 fails: two threads hold exclusive guards at the same time. -/
theorem C80_negation : ∃ s, Reachable s ∧ s.guards = [⟨1, .exclusive⟩, ⟨2, .exclusive⟩] ∧ ¬ Exclusive s.guards := by
  obtain ⟨s, h1, h2⟩ := C80_any_guards_together_partial [⟨1, .exclusive⟩, ⟨2, .exclusive⟩]
  refine ⟨s, h1, h2, ?_⟩
  rw [h2]
  intro h
  cases h with | cons h _ => exact absurd (h ⟨2, .exclusive⟩ (by simp)).1 (by simp)

/-- A state with guards, and calls that leave two threads inside. -/
example : Reachable ⟨Lock.init, [⟨1, .shared⟩]⟩ ∧ Exclusive [⟨1, .shared⟩, ⟨2, .shared⟩] ∧
    calls Lock.init [(true, .exclusive), (true, .exclusive)] = .ok ⟨0, 2⟩ :=
  ⟨.step .init (.guard ⟨1, .shared⟩ rfl), by simp [Exclusive], rfl⟩

end Ab.LockM
