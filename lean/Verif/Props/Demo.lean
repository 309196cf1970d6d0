import Verif.Props.Basic
/-!
# Concrete reachable states

`runHist` executes a concrete history and checks its legality; `runHist_reachable` shows that its result is reachable. The
concrete states below are used to show that the hypotheses of the theorems can be met, and to refute claims.
-/
namespace LBDD

/-- A sufficient check for the precondition of a call. -/
def Fn.preCheck (u : Use) (s : Mgr) : Fn → List Nat → Bool
  | .addVariable, _ => s.nvars < topsinkIndex
  | .projection v, _ => v < topsinkIndex
  | .negProjection v, _ => v < s.nvars
  | .uniqueFind v, l => v < s.nvars && (u != .ordered || l.all (· < 2))
  | .or, _ => u != .parity
  | .ite, _ => u != .parity
  | .xor, _ => u == .parity || u == .mixed
  | .andRange, l => 2 ≤ l.length
  | .andAll, l => 2 ≤ l.length
  | .orRange, l => 2 ≤ l.length && u != .parity
  | .orAll, l => 2 ≤ l.length && u != .parity
  | .xorRange, l => 2 ≤ l.length && (u == .parity || u == .mixed)
  | .xorAll, l => 2 ≤ l.length && (u == .parity || u == .mixed)
  | .allFalse, l => 1 ≤ l.length
  | .atLeastOne, l => 1 ≤ l.length
  | .atMostOne, l => 1 ≤ l.length && u != .parity
  | .simplex, l => 1 ≤ l.length && u != .parity
  | .atLeast _, l => 1 ≤ l.length && u != .parity
  | .atMost _, l => 1 ≤ l.length && u != .parity
  | .cardinality _, l => 1 ≤ l.length && u != .parity
  | .rebaseMap _, _ => false
  | .rebaseVec _, _ => false
  | .nrNodes, l => l.all (2 ≤ ·)
  | .nodesPostorder, l => l.all (2 ≤ ·)
  | .nodesBfs, l => l.all (2 ≤ ·)
  | .exportBdd _ _, _ => false
  | .importBdd _ _, _ => false
  | _, _ => true

theorem not_occurs_sink {s : Mgr} {p w : Nat} (h : p < 2) : ¬ Occurs s p w := by
  rintro ⟨q, q2, hr, _⟩
  cases hr with
  | refl => omega
  | lo h2 => omega
  | hi h2 => omega

theorem Fn.preCheck_sound {cfg : Cfg} {u : Use} {s : Mgr} {f : Fn} {l : List Nat} (h : f.preCheck u s l = true) : f.Pre cfg u s l := by
  cases f <;> simp only [Fn.preCheck, Bool.and_eq_true, Bool.or_eq_true, decide_eq_true_eq, bne_iff_ne, ne_eq, beq_iff_eq,
    List.all_eq_true, Bool.false_eq_true] at h <;> simp only [Fn.Pre] <;> first | exact h | trivial | skip
  case uniqueFind v =>
    refine ⟨h.1, ?_⟩
    intro hu p hp w hw
    rcases h.2 with h | h
    · exact absurd hu h
    · exact absurd hw (not_occurs_sink (h p hp))
  case nrNodes => intro p hp; exact Or.inr (h p hp)
  case nodesPostorder => intro p hp; exact Or.inr (h p hp)

/-- A search for a path of at most `n` arcs. -/
def reachB (cells : Nat → Cell) : Nat → Nat → Nat → Bool
  | 0, p, q => p == q
  | n + 1, p, q => p == q || (2 ≤ p && (cells p).live && (reachB cells n (cells p).lo q || reachB cells n (cells p).hi q))

theorem reachB_sound {cells : Nat → Cell} : ∀ (n p q : Nat), reachB cells n p q = true → Reaches cells p q := by
  intro n
  induction n with
  | zero => intro p q h; simp [reachB] at h; subst h; exact .refl _
  | succ n ih =>
    intro p q h
    simp only [reachB, Bool.or_eq_true, Bool.and_eq_true, beq_iff_eq, decide_eq_true_eq] at h
    rcases h with rfl | ⟨⟨h2, hl⟩, h | h⟩
    · exact .refl _
    · exact .lo h2 hl (ih _ _ h)
    · exact .hi h2 hl (ih _ _ h)

/-- A sufficient check for being reachable from a handle. -/
def keptB (a : Api) (p : Nat) : Bool := p < 2 || a.hs.any (fun o => match o with
  | some h => reachB a.mgr.cells 8 h p
  | none => false)

theorem keptB_sound {a : Api} {p : Nat} (h : keptB a p = true) : a.Kept p := by
  simp only [keptB, Bool.or_eq_true, decide_eq_true_eq, List.any_eq_true] at h
  rcases h with h | ⟨o, ho, h⟩
  · exact Or.inl h
  · cases o with
    | none => cases h
    | some q => exact Or.inr ⟨q, ho, reachB_sound _ _ _ h⟩

/-- A sufficient check for `GcSafe`: no grown tables, no if-then-else entries in the memo cache. -/
def gcSafeB (a : Api) : Bool :=
  (List.range a.mgr.nvars).all (fun v => (a.mgr.tabs v).mask ≤ 63 && (List.range ((a.mgr.tabs v).mask + 1)).all (fun k =>
    match (a.mgr.tabs v).slots k with
    | none => true
    | some p => keptB a p || ((a.mgr.tabs v).slots ((k + 1) % ((a.mgr.tabs v).mask + 1))).isNone)) &&
  (List.range a.mgr.memo.size).all (fun k =>
    match (a.mgr.memo.entries k).r with
    | none => true
    | some r => keptB a r && (a.mgr.memo.entries k).f.all (keptB a) && (a.mgr.memo.entries k).g.all (keptB a) && (a.mgr.memo.entries k).h ≤ 64)

theorem gcSafeB_sound {cfg : Cfg} {a : Api} (h : gcSafeB a = true) : GcSafe cfg a := by
  simp only [gcSafeB, Bool.and_eq_true, List.all_eq_true, List.mem_range, decide_eq_true_eq] at h
  obtain ⟨h1, h2⟩ := h
  constructor
  · intro v k p hv hk hp hn
    have := (h1 v hv).2 k (by omega)
    rw [hp] at this
    simp only [Bool.or_eq_true, Option.isNone_iff_eq_none] at this
    rcases this with this | this
    · exact absurd (keptB_sound this) hn
    · exact this
  · intro v hv hm
    have := (h1 v hv).1
    omega
  · intro k hk r hr p hp
    have := h2 k hk
    rw [hr] at this
    simp only [Bool.and_eq_true, decide_eq_true_eq] at this
    obtain ⟨⟨⟨a1, a2⟩, a3⟩, a4⟩ := this
    rcases hp with hp | hp | hp | hp
    · rw [hp] at a2; exact keptB_sound (by simpa using a2)
    · rw [hp] at a3; exact keptB_sound (by simpa using a3)
    · rw [← hp]; exact keptB_sound a1
    · have := cfg.addr_big p
      omega

/-- Legality check of a step. -/
def legalCheck (u : Use) (a : Api) : Op → Bool
  | .call f is => match a.args is with
    | some ps => f.preCheck u a.mgr ps
    | none => true
  | .gc => gcSafeB a
  | _ => true

theorem legalCheck_sound {cfg : Cfg} {u : Use} {a : Api} {op : Op} (h : legalCheck u a op = true) : Legal cfg u a op := by
  cases op with
  | call f is =>
    intro ps e
    simp only [legalCheck, e] at h
    exact Fn.preCheck_sound h
  | copy i => trivial
  | move i => trivial
  | assign i j => trivial
  | drop i => trivial
  | gc => exact gcSafeB_sound h

/-- Execute a history, checking legality. -/
def runHist (cfg : Cfg) (u : Use) : List Op → Api → Option Api
  | [], a => some a
  | op :: ops, a =>
    if legalCheck u a op then
      match step cfg op a with
      | .ok _ a' => runHist cfg u ops a'
      | _ => none
    else none

theorem runHist_reachable {cfg : Cfg} {u : Use} : ∀ (ops : List Op) (a a' : Api), Reachable cfg u a → runHist cfg u ops a = some a' →
    Reachable cfg u a' := by
  intro ops
  induction ops with
  | nil => intro a a' h e; cases e; exact h
  | cons op ops ih =>
    intro a a' h e
    unfold runHist at e
    split at e
    · rename_i hl
      split at e
      · rename_i a1 e1
        exact ih a1 a' (.step h (legalCheck_sound hl) e1) e
      · cases e
    · cases e

/-- A concrete environment: nodes at consecutive addresses, 22-bit keys from a linear congruential generator. -/
def envOf (ndebug : Bool) : Cfg where
  ndebug := ndebug
  addr p := 32 * (p + 3)
  addr_inj := by intro p q h; omega
  addr_big := by intro p; omega
  rng i := (1664525 * i + 1013904223) % 4194304
  rtl := false
  sinkHash b := if b then 77 else 1234567
  sinkMark _ := false

/-- The state after a concrete history (the fresh manager if the history fails). -/
def stateAfter (cfg : Cfg) (u : Use) (ops : List Op) : Api := (runHist cfg u ops (Api.init cfg)).getD (Api.init cfg)

theorem stateAfter_reachable (cfg : Cfg) (u : Use) (ops : List Op) : Reachable cfg u (stateAfter cfg u ops) := by
  unfold stateAfter
  cases e : runHist cfg u ops (Api.init cfg) with
  | none => exact .init
  | some a => exact runHist_reachable ops _ _ .init e

/-- Handles: 0: x0, 1: x1, 2: x2, 3: x0∧x1, 4: ¬(x0∧x1), 5: (x0∧x1)∨x2, 6: constant true. -/
def demoOps : List Op :=
  [.call (.projection 0) [], .call (.projection 1) [], .call (.projection 2) [], .call .and [0, 1], .call .negate [3],
   .call .or [3, 2], .call .topsink []]

/-- Demo state for the disciplines with disjunction. -/
def demo (u : Use) : Api := stateAfter (envOf false) u demoOps

theorem demo_reachable (u : Use) : Reachable (envOf false) u (demo u) := stateAfter_reachable _ _ _

theorem demo_hs : (demo .ordered).hs = [some 2, some 3, some 4, some 5, some 7, some 9, some 1] := by decide +kernel

end LBDD
