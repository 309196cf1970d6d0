import Verif.Proof.Nest
import Verif.Proof.Coll.Finish
import Verif.Spec.CollNest
/-! Nesting depth of `bdd_and_impl`. -/
namespace LBDD

theorem andTail_cut {limit : Nat} {r r' : List Nat → M Coll (Option Nat)} (h : ∀ k, Cut (r k) (r' k)) (key : List Nat) (es : List Instr) (v : Nat) :
    Cut (andTail limit r key es v) (andTail limit r' key es v) := by
  unfold andTail
  refine .bind (h _) fun o => ?_
  cases o with
  | none => exact .refl _
  | some lo =>
    refine .bind (h _) fun o => ?_
    cases o with
    | none => exact .refl _
    | some hi => exact .refl _

theorem andImpl2_cut {limit : Nat} : ∀ n key, Cut (andImpl2 limit n key) (andImpl2 limit (n + 1) key)
  | 0, _ => .hang _
  | n + 1, [] => .refl _
  | n + 1, [_] => .refl _
  | n + 1, _ :: _ :: _ :: _ => .refl _
  | n + 1, [f, g] => by
    rw [andImpl2, andImpl2]
    refine .bind' fun c => ?_
    cases c.gen.lookup [f, g] with
    | some m => exact .refl _
    | none =>
      have ht : ∀ es v, Cut (andTail limit (andImpl2 limit n) [f, g] es v) (andTail limit (andImpl2 limit (n + 1)) [f, g] es v) := fun es v =>
        andTail_cut (andImpl2_cut n) [f, g] es v
      exact .bind' fun _ => .bind' fun _ => .ite (.refl _) (.ite (.ite (.refl _) (.ite (.ite (.refl _) (ht _ _)) (ht _ _))) (ht _ _))

theorem andImplN_cut {limit : Nat} : ∀ n key, Cut (andImplN limit n key) (andImplN limit (n + 1) key)
  | 0, _ => .hang _
  | n + 1, key => by
    rw [andImplN, andImplN]
    refine .bind' fun c => ?_
    cases c.gen.lookup key with
    | some m => exact .refl _
    | none => exact .bind' fun _ => .ite (.refl _) (.ite (.refl _) (andTail_cut (andImplN_cut n) _ _ _))

theorem M.bind_assertFail {σ α β : Type} {m : M σ α} {f : α → M σ β} {s : σ} (h : m s = .assertFail) : (m >>= f) s = .assertFail := by
  show M.bind m f s = _
  unfold M.bind
  rw [h]

theorem AndPost.no_hang {c : Coll} {limit : Nat} {ts : List Tree} {o : Res Coll (Option Nat)} (h : AndPost c limit ts o) : o ≠ .hang := by
  rintro rfl; exact h

/-! ## Depths -/

def hsum (ts : List Tree) : Nat := (ts.map Tree.height).sum

theorem hsum_cof {ins : List Instr} {v : Nat} (hv : v < cBot) (b : Bool) : ∀ {key : List Nat} {es : List Instr} {ts : List Tree},
    InsAll ins key es → CReprs ins key ts → hsum (ts.map (Tree.cofv b v)) ≤ hsum ts ∧
      ((∃ e ∈ es, e.index = v) → hsum (ts.map (Tree.cofv b v)) < hsum ts)
  | [], [], [], _, _ => ⟨Nat.le_refl _, fun ⟨_, h, _⟩ => by simp at h⟩
  | k :: ks, e :: es, t :: ts, h, h' => by
    obtain ⟨i1, i2⟩ := hsum_cof hv b h.2 h'.2
    have h1 : (t.cofv b v).height ≤ t.height := by
      cases t with
      | bot => exact Nat.le_refl _
      | top => exact Nat.le_refl _
      | node w l r =>
        simp only [Tree.cofv]
        split
        · cases b <;> simp only [Tree.height, if_true, if_false, Bool.false_eq_true] <;> omega
        · exact Nat.le_refl _
    have h2 : e.index = v → (t.cofv b v).height < t.height := by
      intro he
      have hin : e.Inner := Instr.inner_of_lt (he ▸ hv)
      obtain ⟨tl, th, rfl, _, _⟩ := h'.1.inv h.1 hin
      simp only [Tree.cofv, he, if_true]
      cases b <;> simp only [Tree.height, if_true, if_false, Bool.false_eq_true] <;> omega
    unfold hsum at *
    simp only [List.map_cons, List.sum_cons]
    refine ⟨by omega, fun ⟨e', he', hx⟩ => ?_⟩
    rcases List.mem_cons.1 he' with rfl | he'
    · have := h2 hx; omega
    · have := i2 ⟨e', he', hx⟩; omega

theorem FitC.of_height {ins : List Instr} : ∀ (n : Nat) (key : List Nat) (ts : List Tree), CReprs ins key ts → hsum ts < n → FitC ins n key
  | 0, _, _, _, h => by omega
  | n + 1, _, ts, ht, h => .mk fun _ _ b hes hv _ hmem =>
    .of_height n _ _ (ht.cof hv b hes) (by have := (hsum_cof hv b hes ht).2 hmem; omega)

theorem filter_lt {vs : List Nat} {k v : Nat} (hv : v ∈ vs) (hk : k ≤ v) :
    (vs.filter fun w => decide (v + 1 ≤ w)).length < (vs.filter fun w => decide (k ≤ w)).length := by
  induction vs with
  | nil => simp at hv
  | cons a vs ih =>
    have hle : (vs.filter fun w => decide (v + 1 ≤ w)).length ≤ (vs.filter fun w => decide (k ≤ w)).length := by
      clear ih hv
      induction vs with
      | nil => simp
      | cons a vs ih =>
        simp only [List.filter_cons]
        by_cases h1 : v + 1 ≤ a
        · simp [h1, show k ≤ a by omega, ih]
        · by_cases h2 : k ≤ a
          · simp [h1, h2]; omega
          · simp [h1, h2, ih]
    simp only [List.filter_cons]
    rcases List.mem_cons.1 hv with rfl | h
    · rw [if_neg (by simp), if_pos (by simpa using hk)]; simp only [List.length_cons]; omega
    · have := ih h
      by_cases h1 : v + 1 ≤ a
      · simp [h1, show k ≤ a by omega]; omega
      · by_cases h2 : k ≤ a
        · simp [h1, h2]; omega
        · simp [h1, h2]; omega

theorem FitC.of_ordered {ins : List Instr} {vs : List Nat} : ∀ (n k : Nat) (key : List Nat) (ts : List Tree), CReprs ins key ts → (∀ t ∈ ts, t.Ordered) →
    (∀ t ∈ ts, ∀ w, t.Mem w → w ∈ vs ∧ k ≤ w) → (vs.filter fun w => decide (k ≤ w)).length < n → FitC ins n key
  | 0, _, _, _, _, _, _, h => by omega
  | n + 1, k, _, ts, ht, ho, hm, h => .mk fun es v b hes hv hle hmem => by
    have hro := hes.rootGe ht hle
    obtain ⟨t0, ht0, hv0⟩ := hes.memv ht hv hmem
    obtain ⟨hv1, hv2⟩ := hm t0 ht0 v hv0
    refine .of_ordered (vs := vs) n (v + 1) _ _ (ht.cof hv b hes) ?_ ?_ (by have := filter_lt hv1 hv2; omega)
    · intro t h
      obtain ⟨t', h', rfl⟩ := List.mem_map.1 h
      exact Tree.ordered_cofv (ho t' h')
    · intro t h w hw
      obtain ⟨t', h', rfl⟩ := List.mem_map.1 h
      exact ⟨(hm t' h' w (Tree.mem_cofv hw)).1, Tree.cofv_gt (ho t' h') (hro t' h') w hw⟩

theorem cpath_of_height {ins : List Instr} {i : Nat} {t : Tree} (h : CRepr ins i t) : ∃ q, CPath ins i q t.height := by
  induction h with
  | bot => exact ⟨_, .refl _⟩
  | top => exact ⟨_, .refl _⟩
  | @node i e tl th h1 h2 _ _ ih1 ih2 =>
    obtain ⟨q1, p1⟩ := ih1
    obtain ⟨q2, p2⟩ := ih2
    simp only [Tree.height]
    rcases Nat.le_total tl.height th.height with h | h
    · rw [Nat.max_eq_right h]; exact ⟨q2, .hi h1 h2 p2⟩
    · rw [Nat.max_eq_left h]; exact ⟨q1, .lo h1 h2 p1⟩

theorem CPath.le_height {ins : List Instr} {i q k : Nat} (hp : CPath ins i q k) : ∀ {t : Tree}, CRepr ins i t → k ≤ t.height := by
  induction hp with
  | refl => intro t _; exact Nat.zero_le _
  | lo h1 h2 _ ih => intro t h; obtain ⟨tl, th, rfl, a, b⟩ := h.inv h1 h2; have := ih a; simp only [Tree.height]; omega
  | hi h1 h2 _ ih => intro t h; obtain ⟨tl, th, rfl, a, b⟩ := h.inv h1 h2; have := ih b; simp only [Tree.height]; omega

/-- An ordered tree is not higher than the number of its variables. -/
theorem height_le_vars {vs : List Nat} {t : Tree} : ∀ {k : Nat}, t.Ordered → (∀ w, t.Mem w → w ∈ vs ∧ k ≤ w) →
    t.height ≤ (vs.filter fun w => decide (k ≤ w)).length := by
  induction t with
  | bot => intro k _ _; exact Nat.zero_le _
  | top => intro k _ _; exact Nat.zero_le _
  | node v l r ihl ihr =>
    intro k ho hm
    obtain ⟨h1, h2⟩ := hm v (Or.inl rfl)
    have hlt := filter_lt h1 h2
    have hg : ∀ w, (l.Mem w ∨ r.Mem w) → w ∈ vs ∧ v + 1 ≤ w := by
      intro w hw
      refine ⟨(hm w (Or.inr hw)).1, ?_⟩
      have h3 := Tree.cofv_gt (b := false) (v := v) ho (Nat.le_refl v) w
      have h4 := Tree.cofv_gt (b := true) (v := v) ho (Nat.le_refl v) w
      simp only [Tree.cofv, if_true, Bool.false_eq_true, if_false] at h3 h4
      rcases hw with hw | hw
      · exact h3 hw
      · exact h4 hw
    have ol := Tree.ordered_cofv (b := false) (v := v) ho
    have or := Tree.ordered_cofv (b := true) (v := v) ho
    simp only [Tree.cofv, if_true, Bool.false_eq_true, if_false] at ol or
    have := ihl ol (fun w hw => hg w (Or.inl hw))
    have := ihr or (fun w hw => hg w (Or.inr hw))
    simp only [Tree.height]; omega

end LBDD
