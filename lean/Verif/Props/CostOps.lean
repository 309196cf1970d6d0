import Verif.Proof.CostIte
import Verif.Props.Nest
import Verif.Props.Cost
/-!
# Numbers of calls of `and_rec`, `or_rec`, `xor_rec` and `ite_rec` (C84)

`andOpK cfg 1 0`, ... (Model/CostOps.lean) count the calls of the recursive function, `andOpK cfg 0 1`, ... the entries of other keys that the insertions
into the memo cache overwrite. `Counts` says that without the counter they are the functions of the other properties.
-/
namespace LBDD
section
variable {cfg : Cfg} {u : Use} {a : Api} {f g r : Nat} {s' : Mgr} {lf lg : List Nat}

theorem lists_mem {s : Mgr} {p : Nat} {l : List Nat} (h : ListsOnce s p l) : ∀ q, 2 ≤ q → Reaches s.cells p q → q ∈ l := fun q q2 hq => (h.2 q).2 ⟨q2, hq⟩

theorem fuel3_fits {md : Md} {refs : Nat → Nat} {s : Mgr} {f g h : Nat} {tf tg th : Tree} (hi : Inv cfg md refs s) (hf : Repr s.cells f tf) (hg : Repr s.cells g tg)
    (hh : Repr s.cells h th) : Fits md s.nvars (fuel3 s - 1) [tf, tg, th] := by
  refine Or.inl ?_
  have := hi.ht _ _ hf
  have := hi.ht _ _ hg
  have := hi.ht _ _ hh
  unfold fuel3; simp; omega

/-! ## C84 -/

/-- C84: the counted operations are the operations. -/
theorem C84_counts (cfg : Cfg) (wc we f g : Nat) :
    Counts (andOpK cfg wc we f g) (andOp cfg f g) ∧ Counts (orOpK cfg wc we f g) (orOp cfg f g) ∧ Counts (xorOpK cfg wc we f g) (xorOp cfg f g) ∧
    ∀ h, Counts (iteOpK cfg wc we f g h) (iteOp cfg f g h) :=
  ⟨andOpK_counts wc we f g, orOpK_counts wc we f g, xorOpK_counts wc we f g, iteOpK_counts wc we f g⟩

/-- C84, `and_rec`, in every history: a call that returns has made at most `4·k·l + 2` recursive calls, plus 4 for every memo entry of another key that
it has overwritten, where `k` and `l` are the numbers of nodes of the operands; and at most `2^(d+2) - 2` calls, where `d` is the sum of their depths. -/
theorem C84_and (hR : Reachable cfg u a) (hf : a.Holds f) (hg : a.Holds g) (hlf : ListsOnce a.mgr f lf) (hlg : ListsOnce a.mgr g lg)
    (e : andOp cfg f g a.mgr = .ok r s') :
    (andOpK cfg 1 0 f g).calls a.mgr ≤ 4 * (lf.length * lg.length) + 4 * (andOpK cfg 0 1 f g).calls a.mgr + 2 ∧
    ∀ df dg, DepthAtMost a.mgr f df → DepthAtMost a.mgr g dg → (andOpK cfg 1 0 f g).calls a.mgr + 2 ≤ 2 ^ (df + dg + 2) := by
  obtain ⟨tf, rf⟩ := hR.good.any hf
  obtain ⟨tg, rg⟩ := hR.good.any hg
  obtain ⟨K, k1, k2, k3⟩ := keysOf_lists (cfg := cfg) (lists_mem hlf) (lists_mem hlg) andTag
  unfold andOp at e
  rw [M.get_bind_apply] at e
  obtain ⟨R, E⟩ := andRecK_run k1 _ _ f g tf tg _ _ a.mgr r s' hR.good rf rg (fuel2_ok hR.good rf rg).1 (fuel2_ok hR.good rf rg).2
    (reaches_closed hR.good rf) (reaches_closed hR.good rg) (.refl _) (.refl _) k3 e
  have sw := sw_le cfg f g
  unfold andOpK
  rw [calls_of_bind (m := M.get) (s' := a.mgr) (a := a.mgr) rfl, calls_of_bind (m := M.get) (s' := a.mgr) (a := a.mgr) rfl]
  refine ⟨?_, fun df dg Df Dg => ?_⟩
  · have h1 := R.amort
    have h2 := held_le K s'
    omega
  · have := E (df + dg) (fits_of (by have := Df.height rf; have := Dg.height rg; omega))
    omega

/-- C84, `or_rec`, in every history. -/
theorem C84_or (hR : Reachable cfg u a) (hf : a.Holds f) (hg : a.Holds g) (hlf : ListsOnce a.mgr f lf) (hlg : ListsOnce a.mgr g lg)
    (e : orOp cfg f g a.mgr = .ok r s') :
    (orOpK cfg 1 0 f g).calls a.mgr ≤ 4 * (lf.length * lg.length) + 4 * (orOpK cfg 0 1 f g).calls a.mgr + 2 ∧
    ∀ df dg, DepthAtMost a.mgr f df → DepthAtMost a.mgr g dg → (orOpK cfg 1 0 f g).calls a.mgr + 2 ≤ 2 ^ (df + dg + 2) := by
  have hR := hR.mixed
  obtain ⟨tf, rf⟩ := hR.good.any hf
  obtain ⟨tg, rg⟩ := hR.good.any hg
  obtain ⟨K, k1, k2, k3⟩ := keysOf_lists (cfg := cfg) (lists_mem hlf) (lists_mem hlg) orTag
  unfold orOp at e
  rw [M.get_bind_apply] at e
  obtain ⟨R, E⟩ := orRecK_run semIte_mixed.toSemOr k1 _ _ f g tf tg _ _ a.mgr r s' hR.good rf rg (fuel2_ok hR.good rf rg).1 (fuel2_ok hR.good rf rg).2
    (reaches_closed hR.good rf) (reaches_closed hR.good rg) (.refl _) (.refl _) k3 e
  have sw := sw_le cfg f g
  unfold orOpK
  rw [calls_of_bind (m := M.get) (s' := a.mgr) (a := a.mgr) rfl, calls_of_bind (m := M.get) (s' := a.mgr) (a := a.mgr) rfl]
  refine ⟨?_, fun df dg Df Dg => ?_⟩
  · have h1 := R.amort
    have h2 := held_le K s'
    omega
  · have := E (df + dg) (fits_of (by have := Df.height rf; have := Dg.height rg; omega))
    omega

/-- C84, `xor_rec`, in every history (the calls of `negate` that it makes are counted by C76). -/
theorem C84_xor (hR : Reachable cfg u a) (hf : a.Holds f) (hg : a.Holds g) (hlf : ListsOnce a.mgr f lf) (hlg : ListsOnce a.mgr g lg)
    (e : xorOp cfg f g a.mgr = .ok r s') :
    (xorOpK cfg 1 0 f g).calls a.mgr ≤ 4 * (lf.length * lg.length) + 4 * (xorOpK cfg 0 1 f g).calls a.mgr + 2 ∧
    ∀ df dg, DepthAtMost a.mgr f df → DepthAtMost a.mgr g dg → (xorOpK cfg 1 0 f g).calls a.mgr + 2 ≤ 2 ^ (df + dg + 2) := by
  have hR := hR.mixed
  obtain ⟨tf, rf⟩ := hR.good.any hf
  obtain ⟨tg, rg⟩ := hR.good.any hg
  obtain ⟨K, k1, k2, k3⟩ := keysOf_lists (cfg := cfg) (lists_mem hlf) (lists_mem hlg) xorTag
  unfold xorOp at e
  rw [M.get_bind_apply] at e
  obtain ⟨R, E⟩ := xorRecK_run semXor_mixed (fun h => nomatch Use.ordered_iff.1 h) k1 _ _ f g tf tg _ _ a.mgr r s' hR.good rf rg (fuel2_ok hR.good rf rg).1
    (fuel2_ok hR.good rf rg).2 (reaches_closed hR.good rf) (reaches_closed hR.good rg) (.refl _) (.refl _) k3 e
  have sw := sw_le cfg f g
  unfold xorOpK
  rw [calls_of_bind (m := M.get) (s' := a.mgr) (a := a.mgr) rfl, calls_of_bind (m := M.get) (s' := a.mgr) (a := a.mgr) rfl]
  refine ⟨?_, fun df dg Df Dg => ?_⟩
  · have h1 := R.amort
    have h2 := held_le K s'
    omega
  · have := E (df + dg) (fits_of (by have := Df.height rf; have := Dg.height rg; omega))
    omega

/-- C84, `ite_rec`, in every history: at most `2·k·(l+2)·(m+2) + 1` calls of `ite_rec`, plus 2 for every overwritten memo entry, where `k` is the number of
nodes of the condition and `l` and `m` those of the branches; and at most `2^(d+1) - 1` calls, where `d` is the sum of the depths. (The calls of `or_rec`,
`and_rec` and `negate` in the base cases are counted by the other theorems.) -/
theorem C84_ite (hR : Reachable cfg u a) {h : Nat} {lh : List Nat} (hf : a.Holds f) (hg : a.Holds g) (hh : a.Holds h) (hlf : ListsOnce a.mgr f lf) (hlg : ListsOnce a.mgr g lg)
    (hlh : ListsOnce a.mgr h lh) (e : iteOp cfg f g h a.mgr = .ok r s') :
    (iteOpK cfg 1 0 f g h).calls a.mgr ≤ 2 * (lf.length * ((lg.length + 2) * (lh.length + 2))) + 2 * (iteOpK cfg 0 1 f g h).calls a.mgr + 1 ∧
    ∀ df dg dh, DepthAtMost a.mgr f df → DepthAtMost a.mgr g dg → DepthAtMost a.mgr h dh → (iteOpK cfg 1 0 f g h).calls a.mgr + 1 ≤ 2 ^ (df + dg + dh + 1) := by
  have hR := hR.mixed
  obtain ⟨tf, rf⟩ := hR.good.any hf
  obtain ⟨tg, rg⟩ := hR.good.any hg
  obtain ⟨th, rh⟩ := hR.good.any hh
  obtain ⟨K, k1, k2, k3⟩ := keysOf3_lists (cfg := cfg) (lists_mem hlf) (lists_mem hlg) (lists_mem hlh)
  unfold iteOp at e
  rw [M.get_bind_apply] at e
  obtain ⟨R, E⟩ := iteRecK_run semIte_mixed k1 k3 _ f g h tf tg th a.mgr r s' hR.good rf rg rh (by unfold fuel3; omega) (fuel3_fits hR.good rf rg rh)
    (reaches_closed hR.good rf) (reaches_closed hR.good rg) (reaches_closed hR.good rh) (.refl _) (.refl _) (.refl _) e
  unfold iteOpK
  rw [calls_of_bind (m := M.get) (s' := a.mgr) (a := a.mgr) rfl, calls_of_bind (m := M.get) (s' := a.mgr) (a := a.mgr) rfl]
  refine ⟨?_, fun df dg dh Df Dg Dh => ?_⟩
  · have h1 := R.amort
    have h2 := held_le K s'
    omega
  · exact E (df + dg + dh) (Or.inl (by have := Df.height rf; have := Dg.height rg; have := Dh.height rh; simp; omega))

/-- C84, histories whose BDDs respect the variable order: at most `2^(n+2) - 2` calls for `n` variables, however small the cache. -/
theorem C84_ordered (hR : Reachable cfg .ordered a) (hf : a.Holds f) (hg : a.Holds g) :
    (∀ r s', andOp cfg f g a.mgr = .ok r s' → (andOpK cfg 1 0 f g).calls a.mgr + 2 ≤ 2 ^ (a.mgr.nvars + 2)) ∧
    (∀ r s', orOp cfg f g a.mgr = .ok r s' → (orOpK cfg 1 0 f g).calls a.mgr + 2 ≤ 2 ^ (a.mgr.nvars + 2)) ∧
    (∀ h, a.Holds h → ∀ r s', iteOp cfg f g h a.mgr = .ok r s' → (iteOpK cfg 1 0 f g h).calls a.mgr + 1 ≤ 2 ^ (a.mgr.nvars + 1)) := by
  obtain ⟨tf, rf⟩ := hR.good.any hf
  obtain ⟨tg, rg⟩ := hR.good.any hg
  have sw := sw_le cfg f g
  refine ⟨?_, ?_, ?_⟩
  · intro r s' e
    obtain ⟨K, k1, k2, k3⟩ := keysOf_lists (cfg := cfg) (reaches_mem rf) (reaches_mem rg) andTag
    unfold andOp at e
    rw [M.get_bind_apply] at e
    obtain ⟨_, E⟩ := andRecK_run k1 _ _ f g tf tg _ _ a.mgr r s' hR.good rf rg (fuel2_ok hR.good rf rg).1 (fuel2_ok hR.good rf rg).2
      (reaches_closed hR.good rf) (reaches_closed hR.good rg) (.refl _) (.refl _) k3 e
    unfold andOpK
    rw [calls_of_bind (m := M.get) (s' := a.mgr) (a := a.mgr) rfl]
    have := E a.mgr.nvars (fits_ord (Use.ordered_iff.2 rfl) (Nat.le_refl _))
    omega
  · intro r s' e
    obtain ⟨K, k1, k2, k3⟩ := keysOf_lists (cfg := cfg) (reaches_mem rf) (reaches_mem rg) orTag
    unfold orOp at e
    rw [M.get_bind_apply] at e
    obtain ⟨_, E⟩ := orRecK_run (Use.semIte (by simp)).toSemOr k1 _ _ f g tf tg _ _ a.mgr r s' hR.good rf rg (fuel2_ok hR.good rf rg).1 (fuel2_ok hR.good rf rg).2
      (reaches_closed hR.good rf) (reaches_closed hR.good rg) (.refl _) (.refl _) k3 e
    unfold orOpK
    rw [calls_of_bind (m := M.get) (s' := a.mgr) (a := a.mgr) rfl]
    have := E a.mgr.nvars (fits_ord (Use.ordered_iff.2 rfl) (Nat.le_refl _))
    omega
  · intro h hh r s' e
    obtain ⟨th, rh⟩ := hR.good.any hh
    obtain ⟨K, k1, k2, k3⟩ := keysOf3_lists (cfg := cfg) (reaches_mem rf) (reaches_mem rg) (reaches_mem rh)
    unfold iteOp at e
    rw [M.get_bind_apply] at e
    obtain ⟨_, E⟩ := iteRecK_run (Use.semIte (by simp)) k1 k3 _ f g h tf tg th a.mgr r s' hR.good rf rg rh (by unfold fuel3; omega) (fuel3_fits hR.good rf rg rh)
      (reaches_closed hR.good rf) (reaches_closed hR.good rg) (reaches_closed hR.good rh) (.refl _) (.refl _) (.refl _) e
    unfold iteOpK
    rw [calls_of_bind (m := M.get) (s' := a.mgr) (a := a.mgr) rfl]
    exact E a.mgr.nvars (fits_ord (Use.ordered_iff.2 rfl) (Nat.le_refl _))

/-! ## C13 again: growing the cache, now in the states of the API -/

/-- C13 (second part) in every reachable state: doubling the cache changes the answer of no lookup. -/
theorem C13_reachable_growth_lossless (hR : Reachable cfg u a) (f g k : Nat) :
    ∃ o, cacheLookup cfg f g k a.mgr = .ok o a.mgr ∧
      cacheLookup cfg f g k { a.mgr with memo := a.mgr.memo.double a.mgr.cells } = .ok o { a.mgr with memo := a.mgr.memo.double a.mgr.cells } := by
  have hi := hR.good
  obtain ⟨h1, h2, h3, h4⟩ := memoDouble_ok hi.memo
  have hi' : Inv cfg u.md a.count { a.mgr with memo := a.mgr.memo.double a.mgr.cells } := Inv.setMemo hi ⟨h1, h2, h3, h4.place⟩
  refine ⟨_, hi.lookup_find f g k, ?_⟩
  rw [hi'.lookup_find f g k]
  congr 1
  refine Option.ext fun q => ?_
  exact ⟨fun h => hi.placed.find_double h, fun h => hi.placed.double_find h⟩

end

/-! ## Concrete case -/

theorem parity3_holds' : parity3.Holds 6 := by
  have : some 6 ∈ parity3.hs := by decide +kernel
  exact this

/-- The hypotheses of the C84 theorems are met: the conjunction of the parity of three variables (5 nodes) with that of two (3 nodes) takes 8 calls and
overwrites 2 memo entries. -/
theorem C84_concrete : ∃ r s' lf lg, andOp (envOf false) 11 6 parity3.mgr = .ok r s' ∧ ListsOnce parity3.mgr 11 lf ∧ ListsOnce parity3.mgr 6 lg ∧
    lf.length = 5 ∧ lg.length = 3 ∧ (andOpK (envOf false) 1 0 11 6).calls parity3.mgr = 8 ∧ (andOpK (envOf false) 0 1 11 6).calls parity3.mgr = 2 ∧
    8 + 2 ≤ 2 ^ (parity3.mgr.nvars + 2) := by
  obtain ⟨r, s', e⟩ : ∃ r s', andOp (envOf false) 11 6 parity3.mgr = .ok r s' := ⟨_, _, resOf_eq (d := 0) (s := parity3.mgr) (by decide +kernel)⟩
  obtain ⟨lf, h1, e1⟩ := C24_nr_nodes parity3_reachable parity3_holds (Or.inr (by omega))
  obtain ⟨lg, h2, e2⟩ := C24_nr_nodes parity3_reachable parity3_holds' (Or.inr (by omega))
  have n1 : (resOf (nrNodes (envOf false) 11 parity3.mgr) 0 parity3.mgr).1 = 5 := by decide +kernel
  have n2 : (resOf (nrNodes (envOf false) 6 parity3.mgr) 0 parity3.mgr).1 = 3 := by decide +kernel
  have c1 : (andOpK (envOf false) 1 0 11 6).calls parity3.mgr = 8 := by decide +kernel
  have c2 : (andOpK (envOf false) 0 1 11 6).calls parity3.mgr = 2 := by decide +kernel
  have o := (C84_ordered parity3_reachable parity3_holds parity3_holds').1 r s' e
  rw [c1] at o
  exact ⟨r, s', lf, lg, e, h1, h2, (resOf_fst e1 0 parity3.mgr).symm.trans n1, (resOf_fst e2 0 parity3.mgr).symm.trans n2, c1, c2, o⟩

/-- The hypotheses of `C84_ite` and of the third part of `C84_ordered` are met: 7 calls. -/
theorem C84_ite_concrete : ∃ r s', parity3.Holds 6 ∧ parity3.Holds 4 ∧ parity3.Holds 11 ∧ iteOp (envOf false) 6 4 11 parity3.mgr = .ok r s' ∧
    (iteOpK (envOf false) 1 0 6 4 11).calls parity3.mgr = 7 ∧ 7 + 1 ≤ 2 ^ (parity3.mgr.nvars + 1) := by
  obtain ⟨r, s', e⟩ : ∃ r s', iteOp (envOf false) 6 4 11 parity3.mgr = .ok r s' := ⟨_, _, resOf_eq (d := 0) (s := parity3.mgr) (by decide +kernel)⟩
  have h4 : parity3.Holds 4 := by
    have : some 4 ∈ parity3.hs := by decide +kernel
    exact this
  have c1 : (iteOpK (envOf false) 1 0 6 4 11).calls parity3.mgr = 7 := by decide +kernel
  have o := (C84_ordered parity3_reachable parity3_holds' h4).2.2 11 parity3_holds r s' e
  rw [c1] at o
  exact ⟨r, s', parity3_holds', h4, parity3_holds, e, c1, o⟩
end LBDD
