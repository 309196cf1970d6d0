import Verif.Props.Twin
/-!
# Results do not depend on what is cached (last part of C13)

Two processes execute the same history, but one of them loses memo entries: before any call, an arbitrary set of slots of its memo cache is emptied. Nothing a
user can observe differs (except `and_rec` with a node limit and the mixture of `or_rec` and `xor_rec`, for which the claim is false).
-/
namespace LBDD

/-- The memo cache loses the entries in all slots outside `keep`; nothing else changes. -/
def Api.forget (keep : Nat → Bool) (b : Api) : Api :=
  { b with mgr := { b.mgr with memo := { b.mgr.memo with entries := fun k => if keep k then b.mgr.memo.entries k else emptyEntry } } }

/-- Both processes execute the calls `ops` (listed from the last to the first); the second one may lose memo entries between calls. -/
inductive ForgetHistory (u : Use) (cfg1 cfg2 : Cfg) : List Op → Api → Api → Prop
  | init : ForgetHistory u cfg1 cfg2 [] (Api.init cfg1) (Api.init cfg2)
  | step {ops : List Op} {op : Op} {a b a' b' : Api} : ForgetHistory u cfg1 cfg2 ops a b → Legal cfg1 u a op → Legal cfg2 u b op →
      step cfg1 op a = .ok () a' → step cfg2 op b = .ok () b' → ForgetHistory u cfg1 cfg2 (op :: ops) a' b'
  | forget {ops : List Op} {a b : Api} (keep : Nat → Bool) : ForgetHistory u cfg1 cfg2 ops a b →
      ForgetHistory u cfg1 cfg2 ops a (b.forget keep)

variable {u : Use} {cfg cfg1 cfg2 : Cfg} {a b : Api} {ops : List Op}

theorem Good.forget (h : Good cfg u b) (keep : Nat → Bool) : Good cfg u (b.forget keep) where
  bot := h.bot
  top := h.top
  nv := h.nv
  node := h.node
  uniq := h.uniq
  ord := h.ord
  ht := h.ht
  tab := h.tab
  pool := ⟨h.pool.1, h.pool.2, h.pool.3, h.pool.4, h.pool.5, h.pool.6, h.pool.7⟩
  memo := by
    refine ⟨h.memo.pow, h.memo.mask, ?_, ?_⟩
    rotate_left
    · intro k hk hr
      have hr' : (if keep k then b.mgr.memo.entries k else emptyEntry).r.isSome = true := hr
      have : entryHash b.mgr.cells (if keep k then b.mgr.memo.entries k else emptyEntry) % b.mgr.memo.size = k := by
        revert hr'
        split
        · exact fun hr => h.memo.place k hk hr
        · intro hr; cases hr
      exact this
    intro k hk r hr
    have hr' : (if keep k then b.mgr.memo.entries k else emptyEntry).r = some r := hr
    have : EntryOk cfg u.md b.mgr.cells (if keep k then b.mgr.memo.entries k else emptyEntry) := by
      split
      · exact h.memo.entry k hk
      · intro r hr; cases hr
    exact this r hr'
  ref := ⟨h.ref.count, h.ref.live⟩
  mark := h.mark
  smark := h.smark

theorem Abs.forget {K : Prop} {n : Nat} {us : List (Option Tree)} {L : Tree → Prop} (h : Abs K b n us L) (keep : Nat → Bool) :
    Abs K (b.forget keep) n us L := ⟨h.nv, h.len, h.hs, h.live⟩

theorem ForgetHistory.abs (hu : u ≠ .mixed) {K : Prop} (h : ForgetHistory u cfg1 cfg2 ops a b) (hl : ∀ op ∈ ops, ¬ op.IsLimited)
    (hK : K → u = .ordered ∨ .gc ∉ ops) : Good cfg1 u a ∧ Good cfg2 u b ∧ ∃ n us L, Abs K a n us L ∧ Abs K b n us L := by
  induction h with
  | init => exact ⟨Reachable.init.good, Reachable.init.good, 0, [], _, .init _ _, .init _ _⟩
  | @step ops op a b a' b' h0 h1 h2 e1 e2 ih =>
    obtain ⟨ga, gb, n, us, L, x, y⟩ := ih (fun o ho => hl o (by simp [ho])) (fun k => (hK k).imp_right fun h h' => h (by simp [h']))
    obtain ⟨n', us', L', hh⟩ := step_abs hu op (Op.not_limited (hl op (by simp)))
      (fun k e => (hK k).resolve_right fun h => h (by simp [e])) n us L
    exact ⟨(step_good ga h1 e1).1, (step_good gb h2 e2).1, n', us', L', hh _ _ _ ga x h1 e1, hh _ _ _ gb y h2 e2⟩
  | forget keep h0 ih =>
    obtain ⟨ga, gb, n, us, L, x, y⟩ := ih hl hK
    exact ⟨ga, gb.forget keep, n, us, L, x, y.forget keep⟩

/-- C13 (last part), for histories that neither mix `or_rec` with `xor_rec` nor use a node limit: a process that loses any memo entries at any time ends with the
same number of variables, the same handles (in number, null or not, equal or not), the same functions and node counts, and the same total number of nodes (the
last, in histories that do not respect the variable order, only without garbage collections) as one that loses none. -/
theorem C13_transparent_partial (hu : u ≠ .mixed) (h : ForgetHistory u cfg1 cfg2 ops a b) (hl : ∀ op ∈ ops, ¬ op.IsLimited) :
    a.mgr.nvars = b.mgr.nvars ∧ a.hs.length = b.hs.length ∧
    (∀ i : Nat, a.hs[i]? = some none ↔ b.hs[i]? = some none) ∧
    (∀ i j p q p' q' : Nat, a.hs[i]? = some (some p) → a.hs[j]? = some (some q) → b.hs[i]? = some (some p') → b.hs[j]? = some (some q') →
      (p = q ↔ p' = q')) ∧
    (∀ i p q : Nat, a.hs[i]? = some (some p) → b.hs[i]? = some (some q) →
      (∀ F, Denotes cfg1 a.mgr p F ↔ Denotes cfg2 b.mgr q F) ∧
      ∀ k k', nrNodes cfg1 p a.mgr = .ok k a.mgr → nrNodes cfg2 q b.mgr = .ok k' b.mgr → k = k') ∧
    (u = .ordered ∨ .gc ∉ ops → a.mgr.pool.total = b.mgr.pool.total) := by
  obtain ⟨ga, gb, n, us, L, x, y⟩ := h.abs (K := u = .ordered ∨ .gc ∉ ops) hu hl id
  exact x.same_results ga gb y

/-! ### a concrete case, and the exceptions -/

/-- Run the same history twice in one environment; the second run empties its memo cache before every call. -/
def runForget (u : Use) (cfg : Cfg) : List Op → Api × Api → Option (Api × Api)
  | [], ab => some ab
  | op :: ops, (a, b) =>
    if legalCheck u a op && legalCheck u (b.forget fun _ => false) op then
      match step cfg op a, step cfg op (b.forget fun _ => false) with
      | .ok _ a', .ok _ b' => runForget u cfg ops (a', b')
      | _, _ => none
    else none

theorem runForget_same : ∀ (ops done : List Op) (a b a' b' : Api), ForgetHistory u cfg cfg done a b →
    runForget u cfg ops (a, b) = some (a', b') → ForgetHistory u cfg cfg (ops.reverse ++ done) a' b' := by
  intro ops
  induction ops with
  | nil => intro done a b a' b' h e; cases e; exact h
  | cons op ops ih =>
    intro done a b a' b' h e
    unfold runForget at e
    split at e
    · rename_i hc
      rw [Bool.and_eq_true] at hc
      split at e
      · rename_i _ a1 _ b1 e1 e2
        have := ih (op :: done) a1 b1 a' b' (.step (.forget _ h) (legalCheck_sound hc.1) (legalCheck_sound hc.2) e1 e2) e
        simpa using this
      · cases e
    · cases e

/-- x0, x1, x2, x0∧x1, the same again, x1∨x2. -/
def forgetOps : List Op :=
  [.call (.projection 0) [], .call (.projection 1) [], .call (.projection 2) [], .call .and [0, 1], .call .and [0, 1], .call .or [1, 2]]

def forgetDemo : Option (Api × Api) := runForget .ordered (envOf false) forgetOps (Api.init (envOf false), Api.init (envOf false))

/-- The hypotheses of `C13_transparent_partial` are met, and the repeated conjunction is computed again by the second process, whose cache is emptied
before every call. -/
example : ∃ a b, ForgetHistory .ordered (envOf false) (envOf false) forgetOps.reverse a b ∧ (∀ op ∈ forgetOps.reverse, ¬ op.IsLimited) ∧ a.hs.length = 6 := by
  have h : (forgetDemo.map fun ab => ab.1.hs.length) = some 6 := by decide +kernel
  cases e : forgetDemo with
  | none => rw [e] at h; cases h
  | some ab =>
    rw [e] at h
    refine ⟨ab.1, ab.2, by simpa using runForget_same _ _ _ _ ab.1 ab.2 .init e, ?_, by simpa using h⟩
    rintro op ho ⟨n, is, rfl⟩
    simp [forgetOps] at ho

/-- Final states of a history with a node limit. -/
def forgetLimited : Option (Api × Api) :=
  runForget .ordered (envOf false)
    [.call (.projection 0) [], .call (.projection 1) [], .call .and [0, 1], .call (.andLimited 1) [0, 1]] (Api.init (envOf false), Api.init (envOf false))

/-- C13 fails for `and_rec` with a node limit: whether it gives up depends on what is cached. -/
theorem C13_refuted_limited : ∃ (cfg : Cfg) (ops : List Op) (a b : Api), ForgetHistory .ordered cfg cfg ops a b ∧ a.hs.length ≠ b.hs.length := by
  have h : (forgetLimited.map fun ab => (ab.1.hs.length, ab.2.hs.length)) = some (3, 4) := by decide +kernel
  cases e : forgetLimited with
  | none => rw [e] at h; cases h
  | some ab =>
    rw [e] at h
    simp only [Option.map_some, Option.some.injEq, Prod.mk.injEq] at h
    refine ⟨_, _, ab.1, ab.2, runForget_same _ _ _ _ _ _ .init e, ?_⟩
    omega

/-- Final states of a history that mixes `or_rec` and `xor_rec`. -/
def forgetMixed : Option (Api × Api) :=
  runForget .mixed (envOf false)
    [.call (.projection 0) [], .call (.projection 1) [], .call .or [0, 1], .call .xor [0, 1]] (Api.init (envOf false), Api.init (envOf false))

/-- C13 fails for histories that mix `or_rec` and `xor_rec`: the handles of "x0 or x1" and "x0 xor x1" are equal if the result of the first call is still cached, and
different if it is not. -/
theorem C13_refuted_mixed : ∃ (cfg : Cfg) (ops : List Op) (a b : Api) (p p' q' : Nat), ForgetHistory .mixed cfg cfg ops a b ∧
    a.hs[2]? = some (some p) ∧ a.hs[3]? = some (some p) ∧ b.hs[2]? = some (some p') ∧ b.hs[3]? = some (some q') ∧ p' ≠ q' := by
  have h : (forgetMixed.map fun ab => ((ab.1.hs[2]?, ab.1.hs[3]?), (ab.2.hs[2]?, ab.2.hs[3]?))) =
      some ((some (some 4), some (some 4)), (some (some 4), some (some 6))) := by decide +kernel
  cases e : forgetMixed with
  | none => rw [e] at h; cases h
  | some ab =>
    rw [e] at h
    simp only [Option.map_some, Option.some.injEq, Prod.mk.injEq] at h
    exact ⟨_, _, ab.1, ab.2, 4, 4, 6, runForget_same _ _ _ _ _ _ .init e, h.1.1, h.1.2, h.2.1, h.2.2, by decide⟩

end LBDD
