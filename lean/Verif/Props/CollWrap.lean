import Verif.Props.CollReduce
/-!
# Entries of `bdd_or_var` that lose 128 nodes (C50)
-/
namespace LBDD

/-- Check of a call. -/
def COp.legalB (c : Coll) : COp → Bool
  | .and i j _ => decide (i < c.nrBdds) && decide (j < c.nrBdds)
  | .rebaseVec nr m => decide (nr < c.nrBdds) && c.allB nr fun _ e => !e.innerB || (match m[e.index]? with | some w => decide (w < cBot) | none => false)
  | .remove l => decide (l.Pairwise (· < ·)) && l.all fun i => decide (i < c.nrBdds)
  | _ => false

theorem COp.legalB_sound {cfg : Cfg} (hd : cfg.ndebug = true) {c : Coll} {op : COp} (h : op.legalB c = true) : op.Legal cfg c := by
  cases op <;> simp only [COp.legalB, Bool.and_eq_true, decide_eq_true_eq] at h
  case and => exact h
  case rebaseVec nr m =>
    refine ⟨h.1, fun v ⟨j, e, ha, hin, hv⟩ => ?_⟩
    have := Coll.allB_sound h.2 ha
    rw [(Instr.innerB_iff e).2 hin, hv] at this
    cases hm : m[v]? with
    | none => rw [hm] at this; cases this
    | some w => rw [hm] at this; exact ⟨w, rfl, by simpa using this⟩
  case remove l =>
    refine ⟨h.1, fun i hi => ?_, Or.inl hd⟩
    have := List.all_eq_true.1 h.2 i hi
    simpa using this
  all_goals cases h

/-- Run a list of calls. -/
def runOps (cfg : Cfg) : List COp → Coll → Coll
  | [], c => c
  | op :: ops, c => if op.legalB c then (match op.run cfg c with | .ok () c' => runOps cfg ops c' | _ => c) else c

theorem runOps_reachable {cfg : Cfg} (hd : cfg.ndebug = true) : ∀ (ops : List COp) (c : Coll), CReachable cfg c → CReachable cfg (runOps cfg ops c)
  | [], c, h => h
  | op :: ops, c, h => by
    unfold runOps
    split
    · rename_i hl
      split
      · rename_i c' he
        exact runOps_reachable hd ops _ (.step h rfl (COp.legalB_sound hd hl) he)
      · exact h
    · exact h

/-- From f = ¬(x0∧x1) to f = ¬(x0 ∧ (x1 ∨ … ∨ x_{2^n})): copy f, rename, `bdd_and`, remove the two operands (and
a copy of entry 0, since `remove` reads past the end of its list unless the last entry is removed, see C47). Before, f is entry 1; after at least one
round it is entry 2. -/
def wrapOps : Nat → List COp
  | 0 => []
  | n + 1 =>
    let e := if n = 0 then 1 else 2
    wrapOps n ++ [.and e e 1000000, .rebaseVec 3 (0 :: (List.range (2 ^ n)).map (· + 1 + 2 ^ n)), .and e 3 1000000, .and 0 0 1000000, .remove [e, 3, 5]]

/-- A collection with two entries: x0∧x1 and ¬(x0 ∧ (x1 ∨ … ∨ x128)) ∧ x129. -/
def wrapC : Coll := runOps (envOf true) ([.and 0 0 1000000, .remove [2, 4], .rebaseVec 2 [129, 129]] ++ wrapOps 7 ++ [.and 2 1 1000000, .and 0 0 1000000, .remove [1, 2, 4]]) (demoC true)

/-- What it looks like. -/
def wrapIns : List Instr :=
  [⟨2, 1, 0⟩, ⟨2, 3, 1⟩, botInstr, topInstr, ⟨133, 5, 0⟩] ++ (List.range 128).map (fun i => ⟨i + 6, 135, i + 1⟩) ++ [⟨135, 134, 129⟩] ++ [⟨0, 0, cTop⟩, ⟨0, 0, cBot⟩]

theorem wrapC_ins : wrapC.ins = wrapIns ∧ wrapC.del = [0, 4, 136] ∧ wrapC.stack = [] ∧ wrapC.gen = [] ∧ wrapC.red = [] ∧ wrapC.nrh = [] := by
  decide +kernel

def wrapPos : List Nat := List.range 129
def wrapNeg : List Nat := (List.range 128).map (· + 1)
def wrapX : List Bool := List.replicate 129 false ++ [true]

/-- Check that a call returns `r` and that `evaluate` then reads out of range. -/
def wrapB (cfg : Cfg) (x : List Bool) (r : Nat) (o : Res Coll Nat) : Bool :=
  match o with
  | .ok k c => k == r && (match cEvaluate cfg c r x with | .ub => true | _ => false)
  | _ => false

theorem wrapB_sound {cfg : Cfg} {x : List Bool} {r : Nat} {o : Res Coll Nat} (h : wrapB cfg x r o = true) : ∃ c, o = .ok r c ∧ cEvaluate cfg c r x = .ub := by
  unfold wrapB at h
  split at h
  · rename_i k c
    simp only [Bool.and_eq_true, beq_iff_eq] at h
    obtain ⟨rfl, h⟩ := h
    refine ⟨c, rfl, ?_⟩
    cases e : cEvaluate cfg c k x with
    | ub => rfl
    | _ => rw [e] at h; cases h
  · cases h

theorem wrapC_eq : wrapC = ⟨wrapIns, [0, 4, 136], [], [], [], []⟩ := by
  obtain ⟨h1, h2, h3, h4, h5, h6⟩ := wrapC_ins
  cases h : wrapC with
  | mk a b c d e f => rw [h] at h1 h2 h3 h4 h5 h6; subst h1 h2 h3 h4 h5 h6; rfl

/-- C50: ¬(x0 ∧ (x1 ∨ … ∨ x128)) ∧ x129 with the literals x0, …, x128, ¬x1, …, ¬x128, in release builds. The entry is ordered, its root stays, and the
128 nodes that are dropped are not needed any more, but the root's other arc is moved by 128 positions in the wrong direction: evaluating the new entry
reads out of range. -/
theorem C50_refuted_wrap : ∃ c c' pos neg x, CReachable (envOf true) c ∧ 1 < c.nrBdds ∧ c.Ordered 1 ∧ (∀ d, c.del[1]? = some d → ¬ c.BothTop 1 pos neg d) ∧
    CCovers c 1 x ∧ cEvaluate (envOf true) c 1 x = .ok true () ∧ bddOrVar (envOf true) 1 pos neg c = .ok c.nrBdds c' ∧
    cEvaluate (envOf true) c' c.nrBdds x = .ub := by
  have e := wrapC_eq
  have hR : CReachable (envOf true) wrapC := runOps_reachable rfl _ _ (demoC_reachable true)
  rw [e] at hR
  obtain ⟨c', h1, h2⟩ := wrapB_sound (cfg := envOf true) (x := wrapX) (r := 2) (o := bddOrVar (envOf true) 1 wrapPos wrapNeg ⟨wrapIns, [0, 4, 136], [], [], [], []⟩)
    (by decide +kernel)
  refine ⟨_, c', wrapPos, wrapNeg, wrapX, hR, by show 1 < 2; omega, ?_, fun d hd => ?_, fun v hv => ?_, cevB_sound (by decide +kernel), h1, h2⟩
  · exact Coll.orderedB_sound (by decide +kernel)
  · cases hd
    exact Coll.bothTopB_sound (by decide +kernel)
  · exact Coll.varsB_sound (n := 130) (by decide +kernel) hv

/-- Check that the variable of the root is at no other node. -/
def Coll.onlyB (c : Coll) (nr : Nat) : Bool :=
  match c.del[nr]? with
  | none => true
  | some d => match c.ins[d]? with
    | none => true
    | some e => c.allB nr fun j e' => !e'.innerB || e'.index != e.index || j == d

theorem Coll.onlyB_sound {c : Coll} {nr : Nat} (h : c.onlyB nr = true) :
    ∀ d e j e', c.del[nr]? = some d → c.ins[d]? = some e → c.At nr j e' → e'.Inner → e'.index = e.index → j = d := by
  intro d e j e' h1 h2 h3 h4 h5
  unfold Coll.onlyB at h
  rw [h1] at h
  simp only [h2] at h
  have := Coll.allB_sound h h3
  simpa [(Instr.innerB_iff e').2 h4, h5] using this

/-- The hypotheses of `C50_many_removed` hold here: 132 nodes become 4. -/
example : ∃ c', bddOrVar (envOf true) 1 wrapPos wrapNeg wrapC = .ok 2 c' ∧ wrapC.Size 1 132 ∧ c'.Size 2 4 ∧
    ∃ j e, c'.At 2 j e ∧ e.Inner ∧ c'.ins.length ≤ e.lo ∧ c'.ins.length ≤ e.hi := by
  have hR : CReachable (envOf true) wrapC := runOps_reachable rfl _ _ (demoC_reachable true)
  rw [wrapC_eq] at hR ⊢
  have hx : (match bddOrVar (envOf true) 1 wrapPos wrapNeg ⟨wrapIns, [0, 4, 136], [], [], [], []⟩ with
      | .ok k c => k == 2 && c.del[2]? == some 136 && c.del[3]? == some 140 | _ => false) = true := by decide +kernel
  split at hx
  · rename_i k c' e
    simp only [Bool.and_eq_true, beq_iff_eq] at hx
    obtain ⟨⟨rfl, g1⟩, g2⟩ := hx
    have hs : (⟨wrapIns, [0, 4, 136], [], [], [], []⟩ : Coll).Size 1 132 := ⟨4, 136, ⟨rfl, rfl⟩, rfl⟩
    have hs' : c'.Size 2 4 := ⟨136, 140, ⟨g1, g2⟩, rfl⟩
    refine ⟨c', e, hs, hs', (C50_many_removed hR (by show 1 < 2; omega) (fun d hd => ?_) (Coll.onlyB_sound (by decide +kernel)) e hs hs' (by omega)).2.2⟩
    cases hd
    exact Coll.bothTopB_sound (by decide +kernel)
  · cases hx

/-- The hypotheses of `C50_returned` and `C50_debug`: ((x0∧x1) ∨ x2) with the literals x0 and ¬x1. -/
example (nd : Bool) : (∀ d, (demoC nd).del[2]? = some d → ¬ (demoC nd).BothTop 2 [0] [1] d) ∧
    (∀ d e j e', (demoC nd).del[2]? = some d → (demoC nd).ins[d]? = some e → (demoC nd).At 2 j e' → e'.Inner → e'.index = e.index → j = d) := by
  refine ⟨fun d hd => ?_, Coll.onlyB_sound (by cases nd <;> decide +kernel)⟩
  have : (demoC nd).del[2]? = some 8 := by cases nd <;> decide +kernel
  rw [this] at hd; cases hd
  exact Coll.bothTopB_sound (by cases nd <;> decide +kernel)
end LBDD
