import Verif.Model.Mgr
import Verif.Spec.Tree
/-! The Boolean operations as functions of decision trees: what `and_rec`, `or_rec`, `xor_rec`, `negate` and `ite_rec` build, whatever the addresses,
the hash keys and the contents of the memo cache are. -/
namespace LBDD

/-- Tree built by `unique_find(v, l, h)`. -/
def mkTree (v : Nat) (tl th : Tree) : Tree := if tl = th then tl else .node v tl th

/-- The cofactor of a tree with respect to a root variable. -/
def cof (c : Bool) (b : Bool) : Tree → Tree
  | .node v l h => if c then (if b then h else l) else .node v l h
  | t => t

/-- The tree of the negation. -/
def negTree : Tree → Tree
  | .bot => .top
  | .top => .bot
  | .node v l h => .node v (negTree l) (negTree h)

/-- The tree rebuilt bottom-up by `unique_find`. -/
def redT : Tree → Tree
  | .bot => .bot
  | .top => .top
  | .node v l h => mkTree v (redT l) (redT h)

theorem redT_reduced : ∀ {t : Tree}, t.Reduced → redT t = t
  | .bot, _ => rfl
  | .top, _ => rfl
  | .node v l h, hr => by
    show mkTree v (redT l) (redT h) = _
    rw [redT_reduced hr.2.1, redT_reduced hr.2.2]
    simp [mkTree, hr.1]

theorem cof_height_le (c b : Bool) (t : Tree) : (cof c b t).height ≤ t.height := by
  cases t with
  | bot => simp [cof]
  | top => simp [cof]
  | node v l h => cases c <;> cases b <;> simp [cof, Tree.height] <;> omega

theorem cof_height_lt {b : Bool} {v : Nat} {l h : Tree} :
    (cof true b (.node v l h)).height < (Tree.node v l h).height := by
  cases b <;> simp [cof, Tree.height] <;> omega

/-- Recursion of the binary operations: `leaf` gives the cases that need no recursion, `pick` the splitting variable. -/
def meldN (leaf : Tree → Tree → Option Tree) (pick : Nat → Nat → Nat) : Nat → Tree → Tree → Tree
  | 0, _, _ => .bot
  | n + 1, f, g =>
    match leaf f g with
    | some t => t
    | none =>
      match f, g with
      | .node vf fl fh, .node vg gl gh =>
        mkTree (pick vf vg)
          (meldN leaf pick n (cof (pick vf vg == vf) false (.node vf fl fh)) (cof (pick vf vg == vg) false (.node vg gl gh)))
          (meldN leaf pick n (cof (pick vf vg == vf) true (.node vf fl fh)) (cof (pick vf vg == vg) true (.node vg gl gh)))
      | _, _ => .bot

def meldT (leaf : Tree → Tree → Option Tree) (pick : Nat → Nat → Nat) (f g : Tree) : Tree :=
  meldN leaf pick (f.height + g.height + 1) f g

section
variable {leaf : Tree → Tree → Option Tree} {pick : Nat → Nat → Nat}

theorem cof2_lt (hp : ∀ a b, pick a b = a ∨ pick a b = b) (vf vg : Nat) (fl fh gl gh : Tree) (b : Bool) :
    (cof (pick vf vg == vf) b (.node vf fl fh)).height + (cof (pick vf vg == vg) b (.node vg gl gh)).height <
      (Tree.node vf fl fh).height + (Tree.node vg gl gh).height := by
  have a1 := cof_height_le (pick vf vg == vf) b (.node vf fl fh)
  have a2 := cof_height_le (pick vf vg == vg) b (.node vg gl gh)
  rcases hp vf vg with h | h
  · have e : (pick vf vg == vf) = true := by simp [h]
    rw [e] at a1 ⊢
    have := cof_height_lt (b := b) (v := vf) (l := fl) (h := fh)
    omega
  · have e : (pick vf vg == vg) = true := by simp [h]
    rw [e] at a2 ⊢
    have := cof_height_lt (b := b) (v := vg) (l := gl) (h := gh)
    omega

theorem meldN_fuel (hp : ∀ a b, pick a b = a ∨ pick a b = b) : ∀ (n m : Nat) (f g : Tree), f.height + g.height < n → f.height + g.height < m →
    meldN leaf pick n f g = meldN leaf pick m f g := by
  intro n
  induction n with
  | zero => intro m f g h; omega
  | succ n ih =>
    intro m f g hn hm
    cases m with
    | zero => omega
    | succ m =>
      simp only [meldN]
      cases leaf f g with
      | some t => rfl
      | none =>
        match f, g, hn, hm with
        | .node vf fl fh, .node vg gl gh, hn, hm =>
          have h0 := cof2_lt hp vf vg fl fh gl gh false
          have h1 := cof2_lt hp vf vg fl fh gl gh true
          simp only
          rw [ih m _ _ (by omega) (by omega), ih m _ _ (by omega) (by omega)]
        | .bot, _, _, _ => rfl
        | .top, _, _, _ => rfl
        | .node .., .bot, _, _ => rfl
        | .node .., .top, _, _ => rfl

theorem meldT_leaf {f g t : Tree} (h : leaf f g = some t) : meldT leaf pick f g = t := by
  simp only [meldT, meldN, h]

theorem meldT_node (hp : ∀ a b, pick a b = a ∨ pick a b = b) {vf vg : Nat} {fl fh gl gh : Tree}
    (h : leaf (.node vf fl fh) (.node vg gl gh) = none) :
    meldT leaf pick (.node vf fl fh) (.node vg gl gh) = mkTree (pick vf vg)
      (meldT leaf pick (cof (pick vf vg == vf) false (.node vf fl fh)) (cof (pick vf vg == vg) false (.node vg gl gh)))
      (meldT leaf pick (cof (pick vf vg == vf) true (.node vf fl fh)) (cof (pick vf vg == vg) true (.node vg gl gh))) := by
  have h0 := cof2_lt hp vf vg fl fh gl gh false
  have h1 := cof2_lt hp vf vg fl fh gl gh true
  unfold meldT
  rw [meldN]
  simp only [h]
  exact congr (congrArg _ (meldN_fuel hp _ _ _ _ (by omega) (by omega))) (meldN_fuel hp _ _ _ _ (by omega) (by omega))

theorem meldN_comm (hl : ∀ a b, leaf a b = leaf b a) (hc : ∀ a b, pick a b = pick b a) : ∀ (n : Nat) (f g : Tree),
    meldN leaf pick n f g = meldN leaf pick n g f := by
  intro n
  induction n with
  | zero => intros; rfl
  | succ n ih =>
    intro f g
    simp only [meldN]
    rw [hl f g]
    cases leaf g f with
    | some t => rfl
    | none =>
      match f, g with
      | .node vf fl fh, .node vg gl gh =>
        simp only
        rw [hc vf vg, ih, ih (cof _ true _)]
      | .bot, .bot => rfl
      | .bot, .top => rfl
      | .bot, .node .. => rfl
      | .top, .bot => rfl
      | .top, .top => rfl
      | .top, .node .. => rfl
      | .node .., .bot => rfl
      | .node .., .top => rfl

theorem meldT_comm (hl : ∀ a b, leaf a b = leaf b a) (hc : ∀ a b, pick a b = pick b a) (f g : Tree) :
    meldT leaf pick f g = meldT leaf pick g f := by
  unfold meldT
  rw [meldN_comm hl hc, Nat.add_comm f.height]
end

theorem pickMin_or (a b : Nat) : pickMin a b = a ∨ pickMin a b = b := by
  unfold pickMin; split <;> simp
theorem pickMin_le (a b : Nat) : pickMin a b ≤ a ∧ pickMin a b ≤ b := by
  unfold pickMin; split <;> omega
theorem pickMax_or (a b : Nat) : pickMax a b = a ∨ pickMax a b = b := by
  unfold pickMax; split <;> simp
theorem pickMin_comm (a b : Nat) : pickMin a b = pickMin b a := by
  unfold pickMin; split <;> split <;> omega
theorem pickMax_comm (a b : Nat) : pickMax a b = pickMax b a := by
  unfold pickMax; split <;> split <;> omega

def andLeaf (f g : Tree) : Option Tree :=
  if f = g then some f else if f = .bot ∨ g = .bot then some .bot else if f = .top then some g else if g = .top then some f else none
def orLeaf (f g : Tree) : Option Tree :=
  if f = g then some f else if f = .top ∨ g = .top then some .top else if f = .bot then some g else if g = .bot then some f else none
def xorLeaf (f g : Tree) : Option Tree :=
  if f = g then some .bot else if f = .bot then some g else if g = .bot then some f
  else if f = .top then some (negTree g) else if g = .top then some (negTree f) else none

theorem andLeaf_comm (f g : Tree) : andLeaf f g = andLeaf g f := by
  unfold andLeaf
  cases f <;> cases g <;> simp <;> try (split <;> split <;> simp_all)
theorem orLeaf_comm (f g : Tree) : orLeaf f g = orLeaf g f := by
  unfold orLeaf
  cases f <;> cases g <;> simp <;> try (split <;> split <;> simp_all)
theorem xorLeaf_comm (f g : Tree) : xorLeaf f g = xorLeaf g f := by
  unfold xorLeaf
  cases f <;> cases g <;> simp [negTree] <;> try (split <;> split <;> simp_all)

/-- The tree of the conjunction. -/
def tAnd : Tree → Tree → Tree := meldT andLeaf pickMin
/-- The tree of the disjunction. -/
def tOr : Tree → Tree → Tree := meldT orLeaf pickMin
/-- The tree of the exclusive or. -/
def tXor : Tree → Tree → Tree := meldT xorLeaf pickMax

theorem tAnd_comm (f g : Tree) : tAnd f g = tAnd g f := meldT_comm andLeaf_comm pickMin_comm f g
theorem tOr_comm (f g : Tree) : tOr f g = tOr g f := meldT_comm orLeaf_comm pickMin_comm f g
theorem tXor_comm (f g : Tree) : tXor f g = tXor g f := meldT_comm xorLeaf_comm pickMax_comm f g

theorem tAnd_same (t : Tree) : tAnd t t = t := meldT_leaf (by simp [andLeaf])
theorem tOr_same (t : Tree) : tOr t t = t := meldT_leaf (by simp [orLeaf])
theorem tXor_same (t : Tree) : tXor t t = .bot := meldT_leaf (by simp [xorLeaf])
theorem tAnd_bot (t : Tree) : tAnd .bot t = .bot := meldT_leaf (by simp [andLeaf])
theorem tOr_top (t : Tree) : tOr .top t = .top := meldT_leaf (by simp [orLeaf])
theorem tXor_bot (t : Tree) : tXor .bot t = t := meldT_leaf (by
  unfold xorLeaf; split
  · rename_i h; rw [h]
  · simp)
theorem tAnd_top (t : Tree) : tAnd .top t = t := meldT_leaf (by
  unfold andLeaf; split
  · rename_i h; rw [h]
  · cases t <;> simp)
theorem tOr_bot (t : Tree) : tOr .bot t = t := meldT_leaf (by
  unfold orLeaf; split
  · rename_i h; rw [h]
  · cases t <;> simp)
theorem tXor_top (t : Tree) : tXor .top t = negTree t := meldT_leaf (by
  unfold xorLeaf; split
  · rename_i h; rw [← h]; rfl
  · cases t <;> simp [negTree])

/-- What a relation between operand trees and result tree must satisfy to describe a recursion that splits at `pick`. -/
def RelStep (pick : Nat → Nat → Nat) (T : Tree → Tree → Tree → Prop) : Prop :=
  ∀ (vf vg : Nat) (fl fh gl gh t0 t1 : Tree), Tree.node vf fl fh ≠ .node vg gl gh →
    T (cof (pick vf vg == vf) false (.node vf fl fh)) (cof (pick vf vg == vg) false (.node vg gl gh)) t0 →
    T (cof (pick vf vg == vf) true (.node vf fl fh)) (cof (pick vf vg == vg) true (.node vg gl gh)) t1 →
    T (.node vf fl fh) (.node vg gl gh) (mkTree (pick vf vg) t0 t1)

theorem tAnd_step : RelStep pickMin (fun f g r => r = tAnd f g) := by
  intro vf vg fl fh gl gh t0 t1 hne h0 h1
  subst h0; subst h1
  exact (meldT_node pickMin_or (by unfold andLeaf; rw [if_neg hne]; simp)).symm
theorem tOr_step : RelStep pickMin (fun f g r => r = tOr f g) := by
  intro vf vg fl fh gl gh t0 t1 hne h0 h1
  subst h0; subst h1
  exact (meldT_node pickMin_or (by unfold orLeaf; rw [if_neg hne]; simp)).symm
theorem tXor_step : RelStep pickMax (fun f g r => r = tXor f g) := by
  intro vf vg fl fh gl gh t0 t1 hne h0 h1
  subst h0; subst h1
  exact (meldT_node pickMax_or (by unfold xorLeaf; rw [if_neg hne]; simp)).symm

/-! ### if-then-else -/

/-- The root variable, or `d` for a sink. -/
def rootOr (d : Nat) : Tree → Nat
  | .node v _ _ => v
  | _ => d

/-- The cases in which `ite_rec` needs no recursion. -/
def iteLeaf (f g h : Tree) : Option Tree :=
  if f = .top then some g
  else if f = .bot then some h
  else if g = f ∨ g = .top then some (tOr f h)
  else if h = f ∨ h = .bot then some (tAnd f g)
  else if g = h then some g
  else if g = .bot ∧ h = .top then some (negTree f)
  else none

/-- The splitting variable of `ite_rec`; sinks do not count. -/
def iteVar (vf : Nat) (g h : Tree) : Nat := min (min vf (rootOr vf g)) (rootOr vf h)

def iteN : Nat → Tree → Tree → Tree → Tree
  | 0, _, _, _ => .bot
  | n + 1, f, g, h =>
    match iteLeaf f g h with
    | some t => t
    | none =>
      match f with
      | .node vf fl fh =>
        mkTree (iteVar vf g h)
          (iteN n (cof (vf == iteVar vf g h) false (.node vf fl fh)) (cof (rootOr vf g == iteVar vf g h) false g) (cof (rootOr vf h == iteVar vf g h) false h))
          (iteN n (cof (vf == iteVar vf g h) true (.node vf fl fh)) (cof (rootOr vf g == iteVar vf g h) true g) (cof (rootOr vf h == iteVar vf g h) true h))
      | _ => .bot

/-- The tree of the if-then-else. -/
def tIte (f g h : Tree) : Tree := iteN (f.height + g.height + h.height + 1) f g h

theorem cof3_lt (vf : Nat) (fl fh g h : Tree) (b : Bool) :
    (cof (vf == iteVar vf g h) b (.node vf fl fh)).height + (cof (rootOr vf g == iteVar vf g h) b g).height + (cof (rootOr vf h == iteVar vf g h) b h).height <
      (Tree.node vf fl fh).height + g.height + h.height := by
  have a1 := cof_height_le (vf == iteVar vf g h) b (.node vf fl fh)
  have a2 := cof_height_le (rootOr vf g == iteVar vf g h) b g
  have a3 := cof_height_le (rootOr vf h == iteVar vf g h) b h
  by_cases e1 : vf = iteVar vf g h
  · have e : (vf == iteVar vf g h) = true := by simpa using e1
    rw [e] at a1 ⊢
    have := cof_height_lt (b := b) (v := vf) (l := fl) (h := fh)
    omega
  · by_cases e2 : rootOr vf g = iteVar vf g h
    · have e : (rootOr vf g == iteVar vf g h) = true := by simpa using e2
      rw [e] at a2 ⊢
      cases g with
      | bot => exact absurd e2 e1
      | top => exact absurd e2 e1
      | node v l r =>
        have := cof_height_lt (b := b) (v := v) (l := l) (h := r)
        omega
    · have e3 : rootOr vf h = iteVar vf g h := by
        have : iteVar vf g h = min (min vf (rootOr vf g)) (rootOr vf h) := rfl
        omega
      have e : (rootOr vf h == iteVar vf g h) = true := by simpa using e3
      rw [e] at a3 ⊢
      cases h with
      | bot => exact absurd e3 e1
      | top => exact absurd e3 e1
      | node v l r =>
        have := cof_height_lt (b := b) (v := v) (l := l) (h := r)
        omega

theorem iteN_fuel : ∀ (n m : Nat) (f g h : Tree), f.height + g.height + h.height < n → f.height + g.height + h.height < m →
    iteN n f g h = iteN m f g h := by
  intro n
  induction n with
  | zero => intro m f g h hn; omega
  | succ n ih =>
    intro m f g h hn hm
    cases m with
    | zero => omega
    | succ m =>
      simp only [iteN]
      cases iteLeaf f g h with
      | some t => rfl
      | none =>
        match f, hn, hm with
        | .node vf fl fh, hn, hm =>
          have h0 := cof3_lt vf fl fh g h false
          have h1 := cof3_lt vf fl fh g h true
          simp only
          rw [ih m _ _ _ (by omega) (by omega), ih m _ _ _ (by omega) (by omega)]
        | .bot, _, _ => rfl
        | .top, _, _ => rfl

theorem tIte_leaf {f g h t : Tree} (e : iteLeaf f g h = some t) : tIte f g h = t := by
  simp only [tIte, iteN, e]

theorem tIte_node {vf : Nat} {fl fh g h : Tree} (e : iteLeaf (.node vf fl fh) g h = none) :
    tIte (.node vf fl fh) g h = mkTree (iteVar vf g h)
      (tIte (cof (vf == iteVar vf g h) false (.node vf fl fh)) (cof (rootOr vf g == iteVar vf g h) false g) (cof (rootOr vf h == iteVar vf g h) false h))
      (tIte (cof (vf == iteVar vf g h) true (.node vf fl fh)) (cof (rootOr vf g == iteVar vf g h) true g) (cof (rootOr vf h == iteVar vf g h) true h)) := by
  have h0 := cof3_lt vf fl fh g h false
  have h1 := cof3_lt vf fl fh g h true
  unfold tIte
  rw [iteN]
  simp only [e]
  exact congr (congrArg _ (iteN_fuel _ _ _ _ _ (by omega) (by omega))) (iteN_fuel _ _ _ _ _ (by omega) (by omega))

/-- What a relation between the operand trees and the result tree must satisfy to describe `ite_rec`, given the relation `T` for `or_rec`. -/
structure RelIte (T : Tree → Tree → Tree → Prop) (I : Tree → Tree → Tree → Tree → Prop) : Prop where
  top : ∀ g h, I .top g h g
  bot : ∀ g h, I .bot g h h
  or : ∀ v l r g h t, g = .node v l r ∨ g = .top → T (.node v l r) h t → I (.node v l r) g h t
  and : ∀ v l r g h, ¬ (g = .node v l r ∨ g = .top) → h = .node v l r ∨ h = .bot → I (.node v l r) g h (tAnd (.node v l r) g)
  same : ∀ v l r g, ¬ (g = .node v l r ∨ g = .top) → ¬ (g = .node v l r ∨ g = .bot) → I (.node v l r) g g g
  neg : ∀ v l r, I (.node v l r) .bot .top (negTree (.node v l r))
  step : ∀ v l r g h t0 t1, iteLeaf (.node v l r) g h = none →
    I (cof (v == iteVar v g h) false (.node v l r)) (cof (rootOr v g == iteVar v g h) false g) (cof (rootOr v h == iteVar v g h) false h) t0 →
    I (cof (v == iteVar v g h) true (.node v l r)) (cof (rootOr v g == iteVar v g h) true g) (cof (rootOr v h == iteVar v g h) true h) t1 →
    I (.node v l r) g h (mkTree (iteVar v g h) t0 t1)

theorem relIte_true {T : Tree → Tree → Tree → Prop} : RelIte T (fun _ _ _ _ => True) :=
  ⟨fun _ _ => trivial, fun _ _ => trivial, fun _ _ _ _ _ _ _ _ => trivial, fun _ _ _ _ _ _ _ => trivial, fun _ _ _ _ _ _ => trivial,
    fun _ _ _ => trivial, fun _ _ _ _ _ _ _ _ _ _ => trivial⟩

theorem relIte_tIte : RelIte (fun f g r => r = tOr f g) (fun f g h r => r = tIte f g h) where
  top := fun g h => (tIte_leaf (by simp [iteLeaf])).symm
  bot := fun g h => (tIte_leaf (by simp [iteLeaf])).symm
  or := fun v l r g h t hg e => by rw [e]; exact (tIte_leaf (by unfold iteLeaf; simp [hg])).symm
  and := fun v l r g h hg hh => (tIte_leaf (by unfold iteLeaf; rw [if_neg (by simp), if_neg (by simp), if_neg hg, if_pos hh])).symm
  same := fun v l r g hg hh => (tIte_leaf (by unfold iteLeaf; rw [if_neg (by simp), if_neg (by simp), if_neg hg, if_neg hh, if_pos rfl])).symm
  neg := fun v l r => (tIte_leaf (by simp [iteLeaf])).symm
  step := fun v l r g h t0 t1 hn h0 h1 => by rw [h0, h1]; exact (tIte_node hn).symm

end LBDD
