import Verif.Props.Demo
import Verif.Proof.Coll.Hist
import Verif.Proof.Coll.Query
import Verif.Proof.Coll.Canon
/-! Concrete reachable collections. -/
namespace LBDD

/-- Add the BDDs of a list. -/
def addAll (cfg : Cfg) (s : Mgr) : List Nat → Coll → Coll
  | [], c => c
  | p :: ps, c =>
    match addBdd cfg p (s, c) with
    | .ok _ (_, c') => addAll cfg s ps c'
    | _ => c

theorem addAll_reachable {cfg : Cfg} {u : Use} {a : Api} (hR : Reachable cfg u a) : ∀ (ps : List Nat) (c : Coll), CReachable cfg c →
    (∀ p ∈ ps, a.Holds p ∧ 2 ≤ p) → CReachable cfg (addAll cfg a.mgr ps c)
  | [], c, h, _ => h
  | p :: ps, c, h, hp => by
    unfold addAll
    split
    · rename_i nr s' c' e
      exact addAll_reachable hR ps _ (.add h rfl hR (hp p (by simp)).1 (hp p (by simp)).2 e) (fun q hq => hp q (by simp [hq]))
    · exact h

/-- The demo manager state in a debug or a release build. -/
def demoOf (nd : Bool) : Api := stateAfter (envOf nd) .ordered demoOps

theorem demoOf_reachable (nd : Bool) : Reachable (envOf nd) .ordered (demoOf nd) := stateAfter_reachable _ _ _

/-- Entries 0: x0∧x1, 1: ¬(x0∧x1), 2: (x0∧x1)∨x2, 3: x1. -/
def demoC (nd : Bool) : Coll := addAll (envOf nd) (demoOf nd).mgr [5, 7, 9, 3] Coll.init

theorem demoOf_holds (nd : Bool) : ∀ p ∈ [5, 7, 9, 3], (demoOf nd).Holds p ∧ 2 ≤ p := by
  intro p hp
  unfold Api.Holds
  simp only [List.mem_cons, List.not_mem_nil, or_false] at hp
  rcases hp with rfl | rfl | rfl | rfl <;> cases nd <;> decide +kernel

theorem demoC_reachable (nd : Bool) : CReachable (envOf nd) (demoC nd) := addAll_reachable (demoOf_reachable nd) _ _ .init (demoOf_holds nd)

theorem demoC_nrBdds (nd : Bool) : (demoC nd).nrBdds = 4 := by cases nd <;> decide +kernel

/-- Check the result of `evaluate`. -/
def cevB (o : Res Unit Bool) (b : Bool) : Bool := match o with | .ok b' _ => b' == b | _ => false

theorem cevB_sound {o : Res Unit Bool} {b : Bool} (h : cevB o b = true) : o = .ok b () := by
  unfold cevB at h
  split at h
  · simp at h; subst h; rfl
  · cases h

/-- A check of all instructions of an entry. -/
def Coll.allB (c : Coll) (nr : Nat) (P : Nat → Instr → Bool) : Bool :=
  match c.del[nr]?, c.del[nr + 1]? with
  | some d0, some d1 => (List.range d1).all fun i => decide (i < d0) || (match c.ins[i]? with | some e => P i e | none => true)
  | _, _ => true

theorem Coll.allB_sound {c : Coll} {nr : Nat} {P : Nat → Instr → Bool} (h : c.allB nr P = true) {i : Nat} {e : Instr} (ha : c.At nr i e) : P i e = true := by
  obtain ⟨d0, d1, ⟨h1, h2⟩, h3, h4, h5⟩ := ha
  unfold Coll.allB at h
  simp only [h1, h2, List.all_eq_true, List.mem_range, Bool.or_eq_true, decide_eq_true_eq] at h
  have := h i h4
  rw [h5] at this
  rcases this with h | h
  · omega
  · exact h

def Instr.innerB (e : Instr) : Bool := e.index != cBot && e.index != cTop

theorem Instr.innerB_iff (e : Instr) : e.innerB = true ↔ e.Inner := by simp [Instr.innerB, Instr.Inner]

/-- Check that an entry is ordered. -/
def Coll.orderedB (c : Coll) (nr : Nat) : Bool :=
  c.allB nr fun _ e => !e.innerB || [e.lo, e.hi].all fun j => match c.ins[j]? with
    | some e' => !e'.innerB || decide (e.index < e'.index)
    | none => true

theorem Coll.orderedB_sound {c : Coll} {nr : Nat} (h : c.orderedB nr = true) : c.Ordered nr := by
  intro i e j e' ha hin hj ha' hin'
  have := Coll.allB_sound h ha
  obtain ⟨_, _, _, _, _, h5⟩ := ha'
  rw [(Instr.innerB_iff e).2 hin] at this
  simp only [Bool.not_true, Bool.false_or, List.all_eq_true] at this
  have := this j (by rcases hj with rfl | rfl <;> simp)
  rw [h5] at this
  simpa [(Instr.innerB_iff e').2 hin'] using this

/-- Check that the variables of an entry are below a bound. -/
def Coll.varsB (c : Coll) (nr n : Nat) : Bool := c.allB nr fun _ e => !e.innerB || decide (e.index < n)

theorem Coll.varsB_sound {c : Coll} {nr n : Nat} (h : c.varsB nr n = true) {v : Nat} (hv : c.Var nr v) : v < n := by
  obtain ⟨i, e, ha, hin, rfl⟩ := hv
  have := Coll.allB_sound h ha
  simpa [(Instr.innerB_iff e).2 hin] using this

theorem demoC_ordered (nd : Bool) (nr : Nat) (h : nr < 4) : (demoC nd).Ordered nr := by
  apply Coll.orderedB_sound
  have : nr = 0 ∨ nr = 1 ∨ nr = 2 ∨ nr = 3 := by omega
  rcases this with rfl | rfl | rfl | rfl <;> cases nd <;> decide +kernel

theorem demoC_vars (nd : Bool) (nr : Nat) (h : nr < 4) (v : Nat) (hv : (demoC nd).Var nr v) : v < 3 := by
  refine Coll.varsB_sound ?_ hv
  have : nr = 0 ∨ nr = 1 ∨ nr = 2 ∨ nr = 3 := by omega
  rcases this with rfl | rfl | rfl | rfl <;> cases nd <;> decide +kernel

end LBDD
