import Verif.Props.World
import Verif.Props.StoreMixed
import Verif.Spec.WorldMixed
/-! C82 and C89 in every history: managers that combine `xor_rec` with `or_rec` keep weak guarantees, all others and all collections the documented ones. -/
namespace LBDD
section
variable {cfg : Cfg} {u : Use} {a a' : Api} {S S' : Sys} {T : SStore} {R : Store}

theorem step_in (hR : Reachable cfg u a) (h : Looks cfg a R) {op : Op} (hl : Legal cfg u a op) (e : LBDD.step cfg op a = .ok () a') :
    ∃ R', Store.StepBy (fun n f => f.MeansIn u cfg n) R R' op ∧ Looks cfg a' R' := by
  refine step_looks (Mn := fun n f => f.MeansIn u cfg n) hR ?_ h hl e
  intro f ps Fs hh hd hp rs s' e
  by_cases hu : u = .mixed
  · obtain ⟨Gs, h1, h2⟩ := Fn.run_weak hR f hh hd hp e
    exact ⟨Gs, ⟨fun _ => h1, fun h => absurd hu h⟩, h2⟩
  · obtain ⟨Gs, h1, h2⟩ := Fn.run_means f (fun h => absurd h hu) hR hh hd hp e
    exact ⟨Gs, ⟨fun h => absurd h hu, fun _ => h1⟩, h2⟩

/-- C82 in every history: every step of the client is a step of the specification. -/
theorem C82_any_step_partial (hR : Reachable cfg u S.api) (hC : CReachable cfg S.coll) (h : SLooks cfg S T) {op : SOp} (hl : op.Legal cfg u S) {r : Option Nat}
    (d : Sys.Does cfg S S' op r) : ∃ T', SStore.StepBy (fun n f => f.MeansIn u cfg n) (ImportIn u) T T' op r ∧ SLooks cfg S' T' := by
  refine sys_step hR hC h (fun hl e => step_in hR h.api hl e) ?_ ?_ ?_ hl d
  · rintro n n' nr c Fs Gs ⟨h1, h2⟩
    by_cases hu : u = .mixed
    · exact h1 hu
    · exact h2 hu
  · rintro n n' nr c Fs Gs ⟨h1, h2⟩
    by_cases hu : u = .mixed
    · obtain ⟨F, _, m2, m3, m4, m5, G, m6, m7⟩ := h1 hu
      exact ⟨F, m2, m3, m4, m5, G, m6, fun _ => m7, fun h => absurd hu h⟩
    · obtain ⟨F, _, m2, m3, m4, m5, G, m6, m7⟩ := h2 hu
      exact ⟨F, m2, m3, m4, m5, G, m6, fun h => absurd h hu, fun _ => m7⟩
  · rintro n G F F' ⟨h1, h2⟩ h
    exact ⟨fun hu x hx g => (h x hx) ▸ h1 hu x hx g, fun hu x hx => (h2 hu x hx).trans (h x hx)⟩

/-- **C82** in every history. -/
theorem C82_any_system_partial {h : List (SOp × Option Nat)} (hh : SHistory cfg u h S) : ∃ T, SStore.AnyRuns cfg u h T ∧ SLooks cfg S T := by
  induction hh with
  | init => exact ⟨_, .init, slooks_init⟩
  | step hh hl d ih =>
    obtain ⟨T, h1, h2⟩ := ih
    obtain ⟨hR, hC⟩ := hh.reachable
    obtain ⟨T', h3, h4⟩ := C82_any_step_partial hR hC h2 hl d
    exact ⟨T', .step h1 h3, h4⟩
end

section
variable {env : Nat → Cfg} {us : Nat → Use} {W W' : World} {T T' : WStore}

/-- C89 in every history: every step of the program is a step of the specification. -/
theorem C89_any_step_partial (hb : SameBuild env) (hW : W.Reach env us) (h : WLooks env W T) {op : WOp} {r : Option Nat} (hl : op.Legal env us W)
    (d : World.Does env W W' op r) : ∃ T', WStore.StepBy (fun i n f => f.MeansIn (us i) (env i) n) (fun i => ImportIn (us i)) T T' op r ∧ WLooks env W' T' :=
  world_step hb (fun _ _ _ _ _ hR h hl e => step_in hR h hl e) (fun _ _ _ _ _ _ hR hC h hl d => C82_any_step_partial hR hC h hl d) hW h hl d

/-- **C89** in every history: a manager that combines `xor_rec` with `or_rec` keeps the weak guarantees of `Fn.WeakMeans`; the other managers and all collections keep the
documented ones, even if they exchange BDDs with it. -/
theorem C89_any_world_partial (hb : SameBuild env) {h : List (WOp × Option Nat)} (hh : WHistory env us h W) :
    ∃ T, WStore.AnyRuns env us h T ∧ WLooks env W T := by
  induction hh with
  | init => exact ⟨⟨[], []⟩, .init, rfl, rfl, fun i a R e => by simp at e, fun i a R e => by simp at e⟩
  | step hh hl d ih =>
    obtain ⟨T, h1, h2⟩ := ih
    obtain ⟨T', h3, h4⟩ := C89_any_step_partial hb (hh.reach hb) h2 hl d
    exact ⟨T', .step h1 h3, h4⟩

/-- C89, C83: every admissible step of a program succeeds, or throws because a variable has more than 2^18 nodes. -/
theorem C89_progress_partial (hb : SameBuild env) (hW : W.Reach env us) {op : WOp} (hl : op.Legal env us W) (hs : op.Safe env us W) :
    (∃ W' r, World.Does env W W' op r) ∨ W.Full env op := by
  cases op with
  | newMgr => exact Or.inl ⟨_, _, rfl, rfl⟩
  | newColl => exact Or.inl ⟨_, _, rfl, rfl⟩
  | copyColl k => exact Or.inl ⟨_, _, rfl, _, List.getElem?_eq_getElem hs, rfl⟩
  | mgr i op =>
    obtain ⟨a, e, hs⟩ := hs
    have h := C83_progress_partial (hW.mgr i a e) (hl a e) hs
    cases e1 : LBDD.step (env i) op a with
    | ok _ a' => exact Or.inl ⟨_, _, rfl, a, a', e, e1, rfl⟩
    | throw a' => rw [e1] at h; exact Or.inr ⟨a, a', e, e1, h⟩
    | assertFail => rw [e1] at h; exact h.elim
    | ub => rw [e1] at h; exact h.elim
    | hang => rw [e1] at h; exact h.elim
  | coll k op =>
    obtain ⟨c, e, hs⟩ := hs
    obtain ⟨r, c', e1⟩ := C83_coll_partial (hW.coll k c e) (hl c e) hs
    exact Or.inl ⟨_, r, c, c', e, e1, rfl⟩
  | move i k op =>
    obtain ⟨hm, S, e1, e2, hs⟩ := hs
    rcases C83_system_partial (hW.mgr i _ e1) ((hW.coll k _ e2).congr (hb i).symm) (hl S e1 e2) hs with ⟨S', r, d⟩ | hf
    · exact Or.inl ⟨_, r, hm, S, S', e1, e2, d, rfl⟩
    · exact Or.inr ⟨S, e1, e2, hf⟩

/-- C89, C83: every admissible step of a program does what the specification says (total correctness). -/
theorem C89_total_partial (hb : SameBuild env) {h : List (WOp × Option Nat)} (hh : WHistory env us h W) (hT : WLooks env W T) {op : WOp} (hl : op.Legal env us W)
    (hs : op.Safe env us W) :
    (∃ W' r T', World.Does env W W' op r ∧ WStore.StepBy (fun i n f => f.MeansIn (us i) (env i) n) (fun i => ImportIn (us i)) T T' op r ∧ WLooks env W' T') ∨ W.Full env op := by
  rcases C89_progress_partial hb (hh.reach hb) hl hs with ⟨W', r, d⟩ | hf
  · obtain ⟨T', h1, h2⟩ := C89_any_step_partial hb (hh.reach hb) hT hl d
    exact Or.inl ⟨W', r, T', d, h1, h2⟩
  · exact Or.inr hf
end

/-! ### A concrete program -/

/-- Manager 0 combines the two operations, manager 1 does not. -/
def mixedUses : Nat → Use := fun i => if i = 0 then .mixed else .ordered

/-- Manager 0 builds x0, x1, their exclusive disjunction and their disjunction, which is wrong at x0 = x1 = true; that BDD is moved to manager 1, which then builds the disjunction
itself. -/
def mixedWorldOps : List WOp := [.newMgr, .newMgr, .newColl, .mgr 0 (.call (.projection 0) []), .mgr 0 (.call (.projection 1) []), .mgr 0 (.call .xor [0, 1]),
  .mgr 0 (.call .or [0, 1]), .move 0 0 (.add 3), .move 1 0 (.importEntry 0), .mgr 1 (.call (.projection 0) []), .mgr 1 (.call (.projection 1) []), .mgr 1 (.call .or [1, 2])]

def mixedWorldRes : Option (List (WOp × Option Nat) × World) := wRun twoEnvs mixedUses mixedWorldOps [] ⟨[], []⟩

/-- The value of handle `n` of manager `i` at x0 = x1 = true. -/
def handleTT (W : World) (i n : Nat) : Option Bool :=
  match W.mgrs[i]? with
  | some a => match a.hs[n]? with
    | some (some p) => match evaluate (twoEnvs i) a.mgr p [true, true] with | .ok b _ => some b | _ => none
    | _ => none
  | none => none

def mixedWorldVals : Option (List (Option Bool)) := mixedWorldRes.map fun r => [handleTT r.2 0 3, handleTT r.2 1 0, handleTT r.2 1 3]

theorem mixedWorldVals_eq : mixedWorldVals = some [some false, some false, some true] := by decide +kernel

/-- C89: a history with a manager that combines the operations. Its disjunction is wrong at x0 = x1 = true, also after it was moved to manager 1 (which got the function
that manager 0 had); the disjunction that manager 1 computes is right. -/
theorem C89_any_concrete : SameBuild twoEnvs ∧ ∃ h W, WHistory twoEnvs mixedUses h W ∧ h.map (·.1) = mixedWorldOps ∧
    handleTT W 0 3 = some false ∧ handleTT W 1 0 = some false ∧ handleTT W 1 3 = some true := by
  refine ⟨twoEnvs_build, ?_⟩
  have h1 := mixedWorldVals_eq
  unfold mixedWorldVals at h1
  cases e : mixedWorldRes with
  | none => rw [e] at h1; cases h1
  | some r =>
    obtain ⟨h, W⟩ := r
    rw [e] at h1
    injection h1 with h1
    injection h1 with h1 h2
    injection h2 with h2 h3
    injection h3 with h3 h4
    obtain ⟨k1, k2⟩ := wRun_sound twoEnvs_build .init e
    exact ⟨h, W, k1, by simpa using k2, h1, h2, h3⟩

/-- Manager `i` has the handles `is`, two of them, and may compute their conjunction. -/
def andReady (W : World) (i : Nat) (is : List Nat) : Bool :=
  match W.mgrs[i]? with
  | some a => legalCheck (mixedUses i) a (.call .and is) && (match a.args is with | some [_, _] => true | _ => false)
  | none => false

theorem mixedWorld_ready : (mixedWorldRes.map fun r => (andReady r.2 0 [2, 3], andReady r.2 1 [0, 3])) = some (true, true) := by decide +kernel

theorem andReady_sound {W : World} {i : Nat} {is : List Nat} (h : andReady W i is = true) :
    (WOp.mgr i (.call .and is)).Legal twoEnvs mixedUses W ∧ (WOp.mgr i (.call .and is)).Safe twoEnvs mixedUses W := by
  unfold andReady at h
  split at h
  · rename_i a e
    simp only [Bool.and_eq_true] at h
    refine ⟨fun b hb => ?_, a, e, ?_⟩
    · rw [e] at hb; cases hb
      exact legalCheck_sound h.1
    · have h2 := h.2
      split at h2
      · rename_i p q e2
        exact ⟨[p, q], e2, rfl, trivial⟩
      · cases h2
  · cases h

/-- C89: the hypotheses of `C89_total_partial` are met in that program, by both managers. -/
theorem C89_total_concrete : ∃ h W T, WHistory twoEnvs mixedUses h W ∧ WLooks twoEnvs W T ∧ h.map (·.1) = mixedWorldOps ∧
    (∀ op ∈ [WOp.mgr 0 (.call .and [2, 3]), WOp.mgr 1 (.call .and [0, 3])], op.Legal twoEnvs mixedUses W ∧ op.Safe twoEnvs mixedUses W) := by
  have h1 := mixedWorld_ready
  cases e : mixedWorldRes with
  | none => rw [e] at h1; cases h1
  | some r =>
    obtain ⟨h, W⟩ := r
    rw [e] at h1
    injection h1 with h1
    injection h1 with h1 h2
    obtain ⟨k1, k2⟩ := wRun_sound twoEnvs_build .init e
    obtain ⟨T, _, hT⟩ := C89_any_world_partial twoEnvs_build k1
    refine ⟨h, W, T, k1, hT, by simpa using k2, ?_⟩
    intro op hop
    simp only [List.mem_cons, List.not_mem_nil, or_false] at hop
    rcases hop with rfl | rfl
    · exact andReady_sound h1
    · exact andReady_sound h2

/-- C82: the history of `C81_any_concrete` in a program with a collection. -/
theorem C82_any_concrete (nd : Bool) : ∃ h T, SHistory (envOf nd) .mixed h ⟨badStore nd, Coll.init⟩ ∧ h.map (·.1) = badOps.map SOp.mgr ∧
    SStore.AnyRuns (envOf nd) .mixed h T ∧ SLooks (envOf nd) ⟨badStore nd, Coll.init⟩ T := by
  have key : ∀ {ops : List Op} {a : Api}, History (envOf nd) .mixed ops a →
      SHistory (envOf nd) .mixed (ops.map fun op => (SOp.mgr op, none)) ⟨a, Coll.init⟩ := by
    intro ops a h
    induction h with
    | init => exact .init
    | step h hl e ih =>
      rw [List.map_append]
      exact .step ih hl ⟨rfl, e, rfl⟩
  have h := key (C81_any_concrete nd).1
  obtain ⟨T, h1, h2⟩ := C82_any_system_partial h
  exact ⟨_, T, h, by simp, h1, h2⟩

end LBDD
