import Verif.Proof.Nest
import Verif.Props.Demo
/-!
# Nesting depth of the recursive functions (C72)

The recursive functions of the model take the number of nested calls they may make as their first numeric argument and end in `hang` when that
number is used up; `andOp`, `negateOp`, ... start them with a number that depends on how many nodes were ever created. The theorems below say
how many nested calls are really needed: a run that may nest `n` calls deep ends in the same result and the same state (and without `hang`) as the
API function. So the recursion of the C++ function is never nested deeper than `n`, whatever the size of the BDDs, and the machine stack it needs is
bounded by the number of variables (BDDs that respect the variable order) or by the lengths of the paths of the operands.
-/
namespace LBDD

/-- No path from `p` has more than `d` arcs. -/
def DepthAtMost (s : Mgr) (p d : Nat) : Prop := ∀ q k, Path s.cells p q k → k ≤ d

/-- The call `m` ends like `m'`, and ends. -/
def EndsLike {α : Type} (m m' : Res Mgr α) : Prop := m = m' ∧ m ≠ .hang

section
variable {cfg : Cfg} {u : Use} {a : Api} {f g h p : Nat}

theorem DepthAtMost.height {s : Mgr} {d : Nat} {t : Tree} (h : DepthAtMost s p d) (ht : Repr s.cells p t) : t.height ≤ d := by
  obtain ⟨q, hq⟩ := height_le_of_path ht
  exact h q _ hq

theorem path_le_height {s : Mgr} : ∀ {t : Tree} {p q k : Nat}, Repr s.cells p t → Path s.cells p q k → ∃ t', Repr s.cells q t' ∧ k + t'.height ≤ t.height := by
  intro t p q k ht hp
  induction hp with
  | refl => exact ⟨t, ht, by omega⟩
  | lo _ h2 hl ih =>
    obtain ⟨t', h', hk⟩ := ih
    obtain ⟨tl, th, rfl, _, _, h3, h4⟩ := h'.inv h2
    exact ⟨tl, h3, by simp only [Tree.height] at hk; omega⟩
  | hi _ h2 hl ih =>
    obtain ⟨t', h', hk⟩ := ih
    obtain ⟨tl, th, rfl, _, _, h3, h4⟩ := h'.inv h2
    exact ⟨th, h4, by simp only [Tree.height] at hk; omega⟩

theorem Spec.no_hang {md : Md} {refs : Nat → Nat} {α : Type} {m : M Mgr α} {s : Mgr} {P : α → Mgr → Prop} (h : Spec cfg md refs m s P) : m s ≠ .hang := by
  intro e; unfold Spec M.Sat at h; rw [e] at h; exact h
theorem SpecB.no_hang {bad : Prop} {md : Md} {refs : Nat → Nat} {α : Type} {m : M Mgr α} {s : Mgr} {P : α → Mgr → Prop} (h : SpecB bad cfg md refs m s P) :
    m s ≠ .hang := by
  intro e; unfold SpecB at h; rw [e] at h; exact h
theorem SpecA.no_hang {bad : Prop} {md : Md} {refs : Nat → Nat} {α : Type} {m : M Mgr α} {s : Mgr} {P : α → Mgr → Prop} (h : SpecA bad cfg md refs m s P) :
    m s ≠ .hang := by
  intro e; unfold SpecA at h; rw [e] at h; exact h

theorem sw_le (cfg : Cfg) (f g : Nat) : (if cfg.addr g < cfg.addr f then 1 else 0) ≤ 1 := by split <;> omega

theorem fits_of {md : Md} {s : Mgr} {N : Nat} {tf tg : Tree} (h : tf.height + tg.height ≤ N) : Fits md s.nvars N [tf, tg] := Or.inl (by simpa using h)
theorem fits_ord {md : Md} {nv N : Nat} {ts : List Tree} (ho : md.ordered) (h : nv ≤ N) : Fits md nv N ts :=
  Or.inr ⟨ho, 0, by omega, fun _ _ _ _ => Nat.zero_le _⟩

/-! ## Binary operations -/

/-- C72, `and_rec`, in every history: twice the sum of the operands' depths, plus 2 (every split may be preceded by a call that only swaps the operands). -/
theorem C72_and (hR : Reachable cfg u a) (hf : a.Holds f) (hg : a.Holds g) {df dg n : Nat} (Df : DepthAtMost a.mgr f df) (Dg : DepthAtMost a.mgr g dg)
    (hn : 2 * (df + dg) + 2 ≤ n) : EndsLike (andRec cfg n f g a.mgr) (andOp cfg f g a.mgr) := by
  obtain ⟨tf, rf⟩ := hR.good.any hf
  obtain ⟨tg, rg⟩ := hR.good.any hg
  have h1 := Df.height rf
  have h2 := Dg.height rg
  have h0 := (andRec_ok (cfg := cfg) n (tf.height + tg.height) f g tf tg a.mgr hR.good rf rg (fits_of (Nat.le_refl _)) (by have := sw_le cfg f g; omega)).no_hang
  exact ⟨Cut.stable (F := fun n => andRec cfg n f g) (fun n => andRec_cut n f g) h0 (andOp_ok hR.good rf rg).no_hang, h0⟩

/-- C72, `and_rec`, BDDs that respect the variable order: twice the number of variables, plus 2. -/
theorem C72_and_ordered (hR : Reachable cfg .ordered a) (hf : a.Holds f) (hg : a.Holds g) {n : Nat}
    (hn : 2 * a.mgr.nvars + 2 ≤ n) : EndsLike (andRec cfg n f g a.mgr) (andOp cfg f g a.mgr) := by
  obtain ⟨tf, rf⟩ := hR.good.any hf
  obtain ⟨tg, rg⟩ := hR.good.any hg
  have h0 := (andRec_ok (cfg := cfg) n a.mgr.nvars f g tf tg a.mgr hR.good rf rg (fits_ord (Use.ordered_iff.2 rfl) (Nat.le_refl _))
    (by have := sw_le cfg f g; omega)).no_hang
  exact ⟨Cut.stable (F := fun n => andRec cfg n f g) (fun n => andRec_cut n f g) h0 (andOp_ok hR.good rf rg).no_hang, h0⟩

/-- C72, `or_rec`, in every history. -/
theorem C72_or (hR : Reachable cfg u a) (hf : a.Holds f) (hg : a.Holds g) {df dg n : Nat} (Df : DepthAtMost a.mgr f df) (Dg : DepthAtMost a.mgr g dg)
    (hn : 2 * (df + dg) + 2 ≤ n) : EndsLike (orRec cfg n f g a.mgr) (orOp cfg f g a.mgr) := by
  have hR := hR.mixed
  obtain ⟨tf, rf⟩ := hR.good.any hf
  obtain ⟨tg, rg⟩ := hR.good.any hg
  have h1 := Df.height rf
  have h2 := Dg.height rg
  have h0 := (orRec_ok (cfg := cfg) semIte_mixed.toSemOr n (tf.height + tg.height) f g tf tg a.mgr hR.good rf rg (fits_of (Nat.le_refl _))
    (by have := sw_le cfg f g; omega)).no_hang
  exact ⟨Cut.stable (F := fun n => orRec cfg n f g) (fun n => orRec_cut n f g) h0 (orOp_ok semIte_mixed.toSemOr hR.good rf rg).no_hang, h0⟩

/-- C72, `or_rec`, BDDs that respect the variable order. -/
theorem C72_or_ordered (hR : Reachable cfg .ordered a) (hf : a.Holds f) (hg : a.Holds g) {n : Nat}
    (hn : 2 * a.mgr.nvars + 2 ≤ n) : EndsLike (orRec cfg n f g a.mgr) (orOp cfg f g a.mgr) := by
  obtain ⟨tf, rf⟩ := hR.good.any hf
  obtain ⟨tg, rg⟩ := hR.good.any hg
  have hs := (Use.orMode (Or.inl rfl : Use.ordered = .ordered ∨ _)).semIte.toSemOr
  have h0 := (orRec_ok (cfg := cfg) hs n a.mgr.nvars f g tf tg a.mgr hR.good rf rg (fits_ord (Use.ordered_iff.2 rfl) (Nat.le_refl _))
    (by have := sw_le cfg f g; omega)).no_hang
  exact ⟨Cut.stable (F := fun n => orRec cfg n f g) (fun n => orRec_cut n f g) h0 (orOp_ok hs hR.good rf rg).no_hang, h0⟩

/-- C72, `xor_rec`, in every history. The negations it calls are counted separately (`C72_negate`). -/
theorem C72_xor (hR : Reachable cfg u a) (hf : a.Holds f) (hg : a.Holds g) {df dg n : Nat} (Df : DepthAtMost a.mgr f df) (Dg : DepthAtMost a.mgr g dg)
    (hn : 2 * (df + dg) + 2 ≤ n) : EndsLike (xorRec cfg n f g a.mgr) (xorOp cfg f g a.mgr) := by
  have hR := hR.mixed
  obtain ⟨tf, rf⟩ := hR.good.any hf
  obtain ⟨tg, rg⟩ := hR.good.any hg
  have h1 := Df.height rf
  have h2 := Dg.height rg
  have h0 := (xorRec_ok (cfg := cfg) semXor_mixed id n (tf.height + tg.height) f g tf tg a.mgr hR.good rf rg (fits_of (Nat.le_refl _))
    (by have := sw_le cfg f g; omega)).no_hang
  exact ⟨Cut.stable (F := fun n => xorRec cfg n f g) (fun n => xorRec_cut n f g) h0 (xorOp_ok semXor_mixed id hR.good rf rg).no_hang, h0⟩

/-- C72, `and_rec_limited`, in every history. The node counts it calls are counted separately (`C72_traversal`). -/
theorem C72_limited (hR : Reachable cfg u a) (hf : a.Holds f) (hg : a.Holds g) (limit : Nat) {df dg n : Nat} (Df : DepthAtMost a.mgr f df)
    (Dg : DepthAtMost a.mgr g dg) (hn : 2 * (df + dg) + 2 ≤ n) : EndsLike (andLimRec cfg limit n f g a.mgr) (andLimited cfg f g limit a.mgr) := by
  obtain ⟨tf, rf⟩ := hR.good.any hf
  obtain ⟨tg, rg⟩ := hR.good.any hg
  have h1 := Df.height rf
  have h2 := Dg.height rg
  have h0 := (andLimRec_ok (cfg := cfg) (bad := True) (Or.inl trivial) limit n (tf.height + tg.height) f g tf tg a.mgr hR.good rf rg (fits_of (Nat.le_refl _))
    (by have := sw_le cfg f g; omega)).no_hang
  have h9 := (andLimRec_ok (cfg := cfg) (bad := True) (Or.inl trivial) limit (fuel2 a.mgr) _ f g tf tg a.mgr hR.good rf rg (fuel2_ok hR.good rf rg).1
    (fuel2_ok hR.good rf rg).2).no_hang
  exact ⟨Cut.stable (F := fun n => andLimRec cfg limit n f g) (fun n => andLimRec_cut limit n f g) h0 h9, h0⟩

/-- C72, `and_rec_limited`, BDDs that respect the variable order. -/
theorem C72_limited_ordered (hR : Reachable cfg .ordered a) (hf : a.Holds f) (hg : a.Holds g) (limit : Nat) {n : Nat}
    (hn : 2 * a.mgr.nvars + 2 ≤ n) : EndsLike (andLimRec cfg limit n f g a.mgr) (andLimited cfg f g limit a.mgr) := by
  obtain ⟨tf, rf⟩ := hR.good.any hf
  obtain ⟨tg, rg⟩ := hR.good.any hg
  have h0 := (andLimRec_ok (cfg := cfg) (bad := True) (Or.inl trivial) limit n a.mgr.nvars f g tf tg a.mgr hR.good rf rg
    (fits_ord (Use.ordered_iff.2 rfl) (Nat.le_refl _)) (by have := sw_le cfg f g; omega)).no_hang
  have h9 := (andLimRec_ok (cfg := cfg) (bad := True) (Or.inl trivial) limit (fuel2 a.mgr) _ f g tf tg a.mgr hR.good rf rg (fuel2_ok hR.good rf rg).1
    (fuel2_ok hR.good rf rg).2).no_hang
  exact ⟨Cut.stable (F := fun n => andLimRec cfg limit n f g) (fun n => andLimRec_cut limit n f g) h0 h9, h0⟩

/-! ## Negation and if-then-else -/

/-- C72, `negate`, in every history. -/
theorem C72_negate (hR : Reachable cfg u a) (hp : a.Holds p) {d n : Nat} (D : DepthAtMost a.mgr p d) (hn : d + 1 ≤ n) :
    EndsLike (negateRec cfg n p a.mgr) (negateOp cfg p a.mgr) := by
  obtain ⟨t, ht⟩ := hR.good.any hp
  have h1 := D.height ht
  have h0 := (negateRec_ok (cfg := cfg) n p t a.mgr hR.good ht (by omega)).no_hang
  have h9 := (negateRec_ok (cfg := cfg) (fuel1 a.mgr) p t a.mgr hR.good ht (by have := hR.good.ht _ _ ht; unfold fuel1; omega)).no_hang
  exact ⟨Cut.stable (F := fun n => negateRec cfg n p) (fun n => negateRec_cut n p) h0 h9, h0⟩

/-- C72, `ite_rec`, in every history (also when it ends by following an arc of a sink). The other operations it calls are counted separately. -/
theorem C72_ite (hR : Reachable cfg u a) (hf : a.Holds f) (hg : a.Holds g) (hh : a.Holds h) {df dg dh n : Nat} (Df : DepthAtMost a.mgr f df)
    (Dg : DepthAtMost a.mgr g dg) (Dh : DepthAtMost a.mgr h dh) (hn : df + dg + dh + 1 ≤ n) :
    EndsLike (iteRec cfg n f g h a.mgr) (iteOp cfg f g h a.mgr) := by
  have hR := hR.mixed
  obtain ⟨tf, rf⟩ := hR.good.any hf
  obtain ⟨tg, rg⟩ := hR.good.any hg
  obtain ⟨th, rh⟩ := hR.good.any hh
  have h1 := Df.height rf
  have h2 := Dg.height rg
  have h3 := Dh.height rh
  have h0 := (iteRec_ok (cfg := cfg) semIte_mixed True n f g h tf tg th a.mgr hR.good rf rg rh (Or.inl trivial) (by omega)
    (Or.inl (by simp; omega))).no_hang
  exact ⟨Cut.stable (F := fun n => iteRec cfg n f g h) (fun n => iteRec_cut n f g h) h0
    (iteOp_okB semIte_mixed True hR.good rf rg rh (Or.inl trivial)).no_hang, h0⟩

/-- C72, `ite_rec`, BDDs that respect the variable order: the number of variables, plus 1. -/
theorem C72_ite_ordered (hR : Reachable cfg .ordered a) (hf : a.Holds f) (hg : a.Holds g) (hh : a.Holds h) {n : Nat} (hn : a.mgr.nvars + 1 ≤ n) :
    EndsLike (iteRec cfg n f g h a.mgr) (iteOp cfg f g h a.mgr) := by
  obtain ⟨tf, rf⟩ := hR.good.any hf
  obtain ⟨tg, rg⟩ := hR.good.any hg
  obtain ⟨th, rh⟩ := hR.good.any hh
  have hs := (Use.orMode (Or.inl rfl : Use.ordered = .ordered ∨ _)).semIte
  have h0 := (iteRec_ok (cfg := cfg) hs True n f g h tf tg th a.mgr hR.good rf rg rh (Or.inl trivial) (by omega)
    (fits_ord (Use.ordered_iff.2 rfl) (by omega))).no_hang
  exact ⟨Cut.stable (F := fun n => iteRec cfg n f g h) (fun n => iteRec_cut n f g h) h0
    (iteOp_okB hs True hR.good rf rg rh (Or.inl trivial)).no_hang, h0⟩

/-! ## Traversals -/

/-- C72: BDDs that respect the variable order are not deeper than the number of variables. -/
theorem C72_depth_ordered (hR : Reachable cfg .ordered a) (hp : a.Holds p) : DepthAtMost a.mgr p a.mgr.nvars := by
  obtain ⟨t, ht⟩ := hR.good.any hp
  intro q k hq
  obtain ⟨t', _, hk⟩ := path_le_height ht hq
  have := Tree.height_lt_of_ordered (nv := a.mgr.nvars) (k := 0) (hR.good.ord (Use.ordered_iff.2 rfl) _ _ ht) (fun w hw => ⟨Nat.zero_le _, hR.good.mem_lt ht hw⟩)
  omega

/-- C72, traversals: the recursions behind `nr_nodes`, `variables`, `nodes_postorder` (`visit`), `print`, `mark`, `unmark` and `find_bdd_mgr` need one
call more than the depth of the BDD, from any mark bits that allow the traversal to start. -/
theorem C72_traversal (hR : Reachable cfg u a) (hp : a.Holds p) {d n k : Nat} (D : DepthAtMost a.mgr p d) (hn : d + 1 ≤ n) (hk : d + 1 ≤ k)
    (m : Nat → Bool) (hm : 2 ≤ p → m p = false) :
    (∀ post, EndsLike (visit cfg post n p { a.mgr with marks := m }) (visit cfg post k p { a.mgr with marks := m })) ∧
    EndsLike (printRec cfg n p { a.mgr with marks := m }) (printRec cfg k p { a.mgr with marks := m }) ∧
    EndsLike (markRec cfg n p { a.mgr with marks := m }) (markRec cfg k p { a.mgr with marks := m }) ∧
    EndsLike (findMgr cfg n p a.mgr) (findMgr cfg k p a.mgr) := by
  obtain ⟨t, ht⟩ := hR.good.any hp
  have h1 := D.height ht
  have hi := hR.good
  have v : ∀ post n, d + 1 ≤ n → visit cfg post n p { a.mgr with marks := m } ≠ .hang := by
    intro post n hn
    obtain ⟨l, m', e, _⟩ := visit_ok (cfg := cfg) hi post n p t ht (by omega) m hm
    rw [e]; exact fun h => by cases h
  have pr : ∀ n, d + 1 ≤ n → printRec cfg n p { a.mgr with marks := m } ≠ .hang := by
    intro n hn
    obtain ⟨l, m', _, e⟩ := printRec_ok (cfg := cfg) hi n p t ht (by omega) m hm
    rw [e]; exact fun h => by cases h
  have mk : ∀ n, d + 1 ≤ n → markRec cfg n p { a.mgr with marks := m } ≠ .hang := by
    intro n hn
    obtain ⟨l, m', e, _⟩ := markRec_ok (cfg := cfg) hi n p t ht (by omega) m
    rw [e]; exact fun h => by cases h
  have fm : ∀ n, d + 1 ≤ n → findMgr cfg n p a.mgr ≠ .hang := by
    intro n hn
    obtain ⟨l, e, _⟩ := findMgr_ok (cfg := cfg) hi n p t ht (by omega)
    rw [e]; exact fun h => by cases h
  exact ⟨fun post => ⟨Cut.stable (F := fun n => visit cfg post n p) (fun n => visit_cut post n p) (v post n hn) (v post k hk), v post n hn⟩,
    ⟨Cut.stable (F := fun n => printRec cfg n p) (fun n => printRec_cut n p) (pr n hn) (pr k hk), pr n hn⟩,
    ⟨Cut.stable (F := fun n => markRec cfg n p) (fun n => markRec_cut n p) (mk n hn) (mk k hk), mk n hn⟩,
    ⟨Cut.stable (F := fun n => findMgr cfg n p) (fun n => findMgr_cut n p) (fm n hn) (fm k hk), fm n hn⟩⟩

/-- C72, `unmark`, from any mark bits. -/
theorem C72_unmark (hR : Reachable cfg u a) (hp : a.Holds p) {d n k : Nat} (D : DepthAtMost a.mgr p d) (hn : d + 1 ≤ n) (hk : d + 1 ≤ k)
    (m : Nat → Bool) : EndsLike (unmark cfg n p { a.mgr with marks := m }) (unmark cfg k p { a.mgr with marks := m }) := by
  obtain ⟨t, ht⟩ := hR.good.any hp
  have h1 := D.height ht
  have um : ∀ n, d + 1 ≤ n → unmark cfg n p { a.mgr with marks := m } ≠ .hang := by
    intro n hn
    obtain ⟨l, m', e, _⟩ := unmark_ok (cfg := cfg) hR.good n p t ht (by omega) m
    rw [e]; exact fun h => by cases h
  exact ⟨Cut.stable (F := fun n => unmark cfg n p) (fun n => unmark_cut n p) (um n hn) (um k hk), um n hn⟩

/-- C72, `exactly_one_solution()` and `evaluate` (BDDs that respect the variable order, assignments that cover the variables). -/
theorem C72_queries (hR : Reachable cfg .ordered a) (hp : a.Holds p) {n : Nat} (hn : a.mgr.nvars + 1 ≤ n) :
    EndsLike (exactlyOne cfg n p a.mgr) (exactlyOneSolution cfg p a.mgr) ∧
    ∀ x : List Bool, a.mgr.nvars ≤ x.length → evaluateAux cfg a.mgr x n p = evaluate cfg a.mgr p x := by
  obtain ⟨t, ht⟩ := hR.good.any hp
  have h1 := (C72_depth_ordered hR hp).height ht
  have h2 := hR.good.ht _ _ ht
  have ho := Use.ordered_iff.2 (rfl : Use.ordered = _)
  obtain ⟨b, e, _⟩ := exactlyOne_ok (cfg := cfg) hR.good ho n p t ht (by omega)
  obtain ⟨b', e', _⟩ := exactlyOne_ok (cfg := cfg) hR.good ho (fuel1 a.mgr) p t ht (by unfold fuel1; omega)
  have n0 : exactlyOne cfg n p a.mgr ≠ .hang := by rw [e]; exact fun h => by cases h
  have n1 : exactlyOne cfg (fuel1 a.mgr) p a.mgr ≠ .hang := by rw [e']; exact fun h => by cases h
  refine ⟨⟨Cut.stable (F := fun n => exactlyOne cfg n p) (fun n => exactlyOne_cut n p) n0 n1, n0⟩, ?_⟩
  intro x hx
  have hm : ∀ w, t.Mem w → w < x.length := fun w hw => by have := hR.good.mem_lt ht hw; omega
  unfold evaluate
  rw [evaluateAux_ok hR.good x n p t ht (by omega) hm, evaluateAux_ok hR.good x _ p t ht (by unfold fuel1; omega) hm]

end

/-! ## Non-vacuity -/

def hangs {α : Type} : Res Mgr α → Bool
  | .hang => true
  | _ => false

/-- C72: with three variables 8 nested calls of `and_rec` are enough; 3 are not enough for this conjunction (so the bound counts something), and 3
calls of `negate` are not. -/
example : Reachable (envOf false) .ordered (demo .ordered) ∧ (demo .ordered).Holds 9 ∧ (demo .ordered).Holds 7 ∧ (demo .ordered).mgr.nvars = 3 ∧
    EndsLike (andRec (envOf false) 8 9 7 (demo .ordered).mgr) (andOp (envOf false) 9 7 (demo .ordered).mgr) ∧
    hangs (andRec (envOf false) 3 9 7 (demo .ordered).mgr) = true ∧ hangs (negateRec (envOf false) 3 9 (demo .ordered).mgr) = true := by
  have h9 : (demo .ordered).Holds 9 := by unfold Api.Holds; rw [demo_hs]; decide
  have h7 : (demo .ordered).Holds 7 := by unfold Api.Holds; rw [demo_hs]; decide
  have hv : (demo .ordered).mgr.nvars = 3 := by decide +kernel
  exact ⟨demo_reachable _, h9, h7, hv, C72_and_ordered (demo_reachable _) h9 h7 (by rw [hv]; omega), by decide +kernel, by decide +kernel⟩

end LBDD
