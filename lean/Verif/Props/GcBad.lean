import Verif.Props.Gc
import Verif.Props.Ops
/-!
# Garbage collection (C31–C34): concrete failures

Every history below is legal in the most restrictive discipline (`.ordered`); all failures occur in debug and in release builds.
-/
namespace LBDD

/-- An environment with chosen hash keys: the sinks get `kb` and `kt`, every other node 0 (a possible outcome of the random generator). -/
def gcEnv (ndebug : Bool) (kb kt : Nat) : Cfg where
  ndebug := ndebug
  addr p := 32 * (p + 3)
  addr_inj := by intro p q h; omega
  addr_big := by intro p; omega
  rng _ := 0
  rtl := false
  sinkHash b := if b then kt else kb
  sinkMark _ := false

/-- Does a history return? -/
def okA (o : Res Api Unit) : Bool :=
  match o with
  | .ok _ _ => true
  | _ => false

/-- The state after a history that returns. -/
def stA (o : Res Api Unit) (a : Api) : Api :=
  match o with
  | .ok _ a' => a'
  | _ => a

theorem okA_sound {o : Res Api Unit} {a : Api} (h : okA o = true) : o = .ok () (stA o a) := by
  cases o <;> simp [okA] at h; rfl

def ubA (o : Res Api Unit) : Bool :=
  match o with
  | .ub => true
  | _ => false

theorem ubA_sound {o : Res Api Unit} (h : ubA o = true) : o = .ub := by
  cases o <;> simp [ubA] at h; rfl

def hangA (o : Res Api Unit) : Bool :=
  match o with
  | .hang => true
  | _ => false

theorem hangA_sound {o : Res Api Unit} (h : hangA o = true) : o = .hang := by
  cases o <;> simp [hangA] at h; rfl

def ubE (o : Res Unit Bool) : Bool :=
  match o with
  | .ub => true
  | _ => false

theorem ubE_sound {o : Res Unit Bool} (h : ubE o = true) : o = .ub := by
  cases o <;> simp [ubE] at h; rfl

/-! ## C32: a dead node that follows another dead node in its table is lost -/

/-- x0 and ¬x0 sit in neighbouring slots, both without handles. -/
def leakState (nd : Bool) : Api :=
  stateAfter (gcEnv nd 0 1) .ordered [.call (.projection 0) [], .call (.negProjection 0) [], .drop 0, .drop 1]

/-- The full C32 is false: after `collect_garbage` a manager whose user holds no handle at all still counts three nodes; the third one is in no
unique table any more and not offered for re-use, so that no later collection can free it. -/
theorem C32_refuted : ∀ nd : Bool, ∃ cfg a a' p, cfg.ndebug = nd ∧ Reachable cfg .ordered a ∧ step cfg .gc a = .ok () a' ∧
    (∀ o ∈ a'.hs, o = none) ∧ a'.mgr.pool.total = 3 ∧ (a'.mgr.cells p).live = true ∧ ¬ a'.Kept p ∧
    p ∉ a'.mgr.pool.avail ∧ ∀ k, k ≤ (a'.mgr.tabs 0).mask → (a'.mgr.tabs 0).slots k ≠ some p := by
  intro nd
  have hs : ∀ o ∈ (stA (step (gcEnv nd 0 1) .gc (leakState nd)) (leakState nd)).hs, o = none := by cases nd <;> decide +kernel
  refine ⟨gcEnv nd 0 1, leakState nd, stA (step (gcEnv nd 0 1) .gc (leakState nd)) (leakState nd), 2, rfl, stateAfter_reachable _ _ _,
    okA_sound ?_, hs, ?_, ?_, ?_, ?_, ?_⟩
  · cases nd <;> decide +kernel
  · cases nd <;> decide +kernel
  · cases nd <;> decide +kernel
  · rintro (h | ⟨q, h, _⟩)
    · omega
    · cases hs _ h
  · cases nd <;> decide +kernel
  · have hm : (((stA (step (gcEnv nd 0 1) .gc (leakState nd)) (leakState nd)).mgr.tabs 0).mask = 63) := by cases nd <;> decide +kernel
    have h : (List.range 64).all (fun k => ((stA (step (gcEnv nd 0 1) .gc (leakState nd)) (leakState nd)).mgr.tabs 0).slots k != some 2) = true := by
      cases nd <;> decide +kernel
    intro k hk
    rw [List.all_eq_true] at h
    simpa using h k (List.mem_range.2 (by omega))

/-- The same history as `C32_refuted`: the hypotheses of `C32_gc_complete_partial` fail there, the garbage is not isolated. -/
theorem leak_not_safe : ∀ nd, ¬ GcSafe (gcEnv nd 0 1) (leakState nd) := by
  intro nd hs
  have hR : Reachable (gcEnv nd 0 1) .ordered (leakState nd) := stateAfter_reachable _ _ _
  have e : step (gcEnv nd 0 1) .gc (leakState nd) = .ok () (stA (step (gcEnv nd 0 1) .gc (leakState nd)) (leakState nd)) :=
    okA_sound (by cases nd <;> decide +kernel)
  have hn : ∀ o ∈ (stA (step (gcEnv nd 0 1) .gc (leakState nd)) (leakState nd)).hs, o = none := by cases nd <;> decide +kernel
  have hl : ((stA (step (gcEnv nd 0 1) .gc (leakState nd)) (leakState nd)).mgr.cells 2).live = true := by cases nd <;> decide +kernel
  rcases ((C32_gc_complete_partial hR hs e).1 2).1 hl with h | ⟨q, h, _⟩
  · omega
  · cases hn _ h

/-! ## C33: a live node that follows a dead one makes the collection loop for ever -/

/-- x0 (held) sits in the slot right after ¬x0 (dropped). -/
def loopState (nd : Bool) : Api :=
  stateAfter (gcEnv nd 0 1) .ordered [.call (.projection 0) [], .call (.negProjection 0) [], .drop 1]

/-- The full C33 is false: with one variable, one held and one dropped handle, `collect_garbage` never returns. (`hang` is genuine: see
`rdInner_fuel` and `probeFree_stuck`.) -/
theorem C33_refuted : ∀ nd : Bool, ∃ cfg a, cfg.ndebug = nd ∧ Reachable cfg .ordered a ∧ step cfg .gc a = .hang := by
  intro nd
  exact ⟨gcEnv nd 0 1, loopState nd, rfl, stateAfter_reachable _ _ _, hangA_sound (by cases nd <;> decide +kernel)⟩

/-! ## C34: the memo cache is never purged -/

/-- Handles: 0: x0, 1: x1, 2: null (x0∧x1 was dropped). -/
def staleState (nd : Bool) : Api :=
  stateAfter (envOf nd) .ordered [.call (.projection 0) [], .call (.projection 1) [], .call .and [0, 1], .drop 2]

/-- The full C34 is false: compute x0∧x1, drop the result, collect garbage, create x2, compute x0∧x1 again. The memo cache still has the freed
node, whose memory now holds x2, so that the "conjunction" is true where x0 and x1 are false. -/
theorem C34_refuted : ∀ nd : Bool, ∃ a a', Reachable (envOf nd) .ordered a ∧
    a.hs = [some 2, some 3, none] ∧
    steps (envOf nd) [.gc, .call (.projection 2) [], .call .and [0, 1]] a = .ok () a' ∧
    a'.hs[4]? = some (some 4) ∧
    EvalsTo (envOf nd) a'.mgr 2 [false, false, true] false ∧ EvalsTo (envOf nd) a'.mgr 3 [false, false, true] false ∧
    EvalsTo (envOf nd) a'.mgr 4 [false, false, true] true := by
  intro nd
  refine ⟨staleState nd, stA (steps (envOf nd) [.gc, .call (.projection 2) [], .call .and [0, 1]] (staleState nd)) (staleState nd),
    stateAfter_reachable _ _ _, ?_, okA_sound ?_, ?_, evalsB_sound ?_, evalsB_sound ?_, evalsB_sound ?_⟩ <;> (cases nd <;> decide +kernel)

/-- C34, the immediate form: right after the collection, `and_rec(x0, x1)` returns a node that was freed; evaluating it is undefined behaviour. -/
theorem C34_refuted_freed : ∀ nd : Bool, ∃ a a', Reachable (envOf nd) .ordered a ∧
    steps (envOf nd) [.gc, .call .and [0, 1]] a = .ok () a' ∧ a'.hs[3]? = some (some 4) ∧ (a'.mgr.cells 4).live = false ∧
    evaluate (envOf nd) a'.mgr 4 [true, true] = .ub := by
  intro nd
  refine ⟨staleState nd, stA (steps (envOf nd) [.gc, .call .and [0, 1]] (staleState nd)) (staleState nd),
    stateAfter_reachable _ _ _, okA_sound ?_, ?_, ?_, ubE_sound ?_⟩ <;> (cases nd <;> decide +kernel)

/-! ## C31: two ways to lose a node that is still held -/

/-- C31 fails once a manager function was called after a collection that freed a node still mentioned in the memo cache: the stale result of
`and_rec(x0, x1)` shares its memory with x2, created afterwards, whose reference count started from 0 again. Dropping the former frees the
latter in the next collection while the user still holds it; evaluating it is undefined behaviour. -/
theorem C31_refuted_stale_handle : ∀ nd : Bool, ∃ a a1 a2, Reachable (envOf nd) .ordered a ∧
    steps (envOf nd) [.gc, .call .and [0, 1], .call (.projection 2) [], .drop 3] a = .ok () a1 ∧ a1.Holds 4 ∧
    EvalsTo (envOf nd) a1.mgr 4 [false, false, true] true ∧
    step (envOf nd) .gc a1 = .ok () a2 ∧ a2.Holds 4 ∧ (a2.mgr.cells 4).live = false ∧
    evaluate (envOf nd) a2.mgr 4 [false, false, true] = .ub := by
  intro nd
  refine ⟨staleState nd, stA (steps (envOf nd) [.gc, .call .and [0, 1], .call (.projection 2) [], .drop 3] (staleState nd)) (staleState nd),
    stA (step (envOf nd) .gc (stA (steps (envOf nd) [.gc, .call .and [0, 1], .call (.projection 2) [], .drop 3] (staleState nd)) (staleState nd)))
      (staleState nd),
    stateAfter_reachable _ _ _, okA_sound ?_, ?_, evalsB_sound ?_, okA_sound ?_, ?_, ?_, ubE_sound ?_⟩ <;>
    (try unfold Api.Holds) <;> (cases nd <;> decide +kernel)

/-- Handles: 0: null (x0 was dropped), 1: x1, 2: x0∧x1, which sits in slot 0 of the table of variable 0 because its home, slot 63, held x0. -/
def dupState (nd : Bool) : Api :=
  stateAfter (gcEnv nd 63 0) .ordered [.call (.projection 0) [], .call (.projection 1) [], .call .and [0, 1], .drop 0]

/-- C31, the double free: a collection stores x0∧x1 a second time (in slot 63) without clearing slot 0. After the handle to it is dropped, the
next collection frees it twice. The second `free_node` follows the union member `lo` of a node on the free list — it holds the free-list link, a
null pointer here — and decrements its reference count, then the one of x1, which the user still holds. In the model this is `ub`. -/
theorem C31_refuted_double_free : ∀ nd : Bool, ∃ cfg a a1, cfg.ndebug = nd ∧ Reachable cfg .ordered a ∧
    steps cfg [.gc, .drop 2] a = .ok () a1 ∧ a1.Holds 3 ∧ step cfg .gc a1 = .ub := by
  intro nd
  refine ⟨gcEnv nd 63 0, dupState nd, stA (steps (gcEnv nd 63 0) [.gc, .drop 2] (dupState nd)) (dupState nd), rfl, stateAfter_reachable _ _ _,
    okA_sound ?_, ?_, ubA_sound ?_⟩ <;> (try unfold Api.Holds) <;> (cases nd <;> decide +kernel)

/-- The hypotheses of `C31_gc_keeps_partial` at work where the layout is bad: the first of the two collections above returns, and the state is
`Collected` but the garbage was not isolated. -/
theorem dup_collected : ∀ nd, ∃ a', step (gcEnv nd 63 0) .gc (dupState nd) = .ok () a' ∧ Collected (gcEnv nd 63 0) .ordered (dupState nd) ∧
    (dupState nd).Holds 4 ∧ a'.mgr.pool.total + 1 = (dupState nd).mgr.pool.total := by
  intro nd
  refine ⟨stA (step (gcEnv nd 63 0) .gc (dupState nd)) (dupState nd), okA_sound ?_, .base (stateAfter_reachable _ _ _), ?_, ?_⟩ <;>
    (try unfold Api.Holds) <;> (cases nd <;> decide +kernel)

/-! ## The side conditions can be met by states with garbage -/

/-- Handles: 0: x0, 1: x1, 2: x0∧x1, 3: null (x2 was dropped). -/
def tidyState (nd : Bool) : Api :=
  stateAfter (envOf nd) .ordered [.call (.projection 0) [], .call (.projection 1) [], .call .and [0, 1], .call (.projection 2) [], .drop 3]

/-- C32, C33, C34, C35: a `GcSafe` state with three handles and one node of garbage; its collection frees exactly this node. -/
theorem tidy : ∀ nd, Reachable (envOf nd) .ordered (tidyState nd) ∧ GcSafe (envOf nd) (tidyState nd) ∧
    (tidyState nd).mgr.pool.total = 6 ∧
    ∃ a', step (envOf nd) .gc (tidyState nd) = .ok () a' ∧ a'.hs = [some 2, some 3, some 4, none] ∧ a'.mgr.pool.total = 5 := by
  intro nd
  refine ⟨stateAfter_reachable _ _ _, gcSafeB_sound ?_, ?_, stA (step (envOf nd) .gc (tidyState nd)) (tidyState nd), okA_sound ?_, ?_, ?_⟩ <;>
    (cases nd <;> decide +kernel)

end LBDD
