import Verif.Spec.Tree
/-! Lemmas about decision trees; the main one is canonicity (`Tree.canonical`). -/
namespace LBDD
namespace Tree

theorem eval_congr {t : Tree} {x y : Assign} (h : ∀ w, t.Mem w → x w = y w) :
    t.eval x = t.eval y := by
  induction t with
  | bot => rfl
  | top => rfl
  | node v lo hi ihl ihh =>
    have hv := h v (Or.inl rfl)
    simp only [eval, hv, ihl (fun w hw => h w (Or.inr (Or.inl hw))),
      ihh (fun w hw => h w (Or.inr (Or.inr hw)))]

/-- Set one variable of an assignment. -/
def set (x : Assign) (v : Nat) (b : Bool) : Assign := fun w => if w = v then b else x w

@[simp] theorem set_same (x : Assign) (v : Nat) (b : Bool) : set x v b v = b := by simp [set]

theorem eval_set_of_not_mem {t : Tree} {v : Nat} (h : ¬ t.Mem v) (x : Assign) (b : Bool) :
    t.eval (set x v b) = t.eval x := by
  apply eval_congr
  intro w hw
  by_cases e : w = v
  · subst e; exact absurd hw h
  · simp [set, e]

theorem not_mem_lo {v : Nat} {lo hi : Tree} (h : Ordered (node v lo hi)) : ¬ lo.Mem v :=
  fun hm => Nat.lt_irrefl _ (h.1 v hm)

theorem not_mem_hi {v : Nat} {lo hi : Tree} (h : Ordered (node v lo hi)) : ¬ hi.Mem v :=
  fun hm => Nat.lt_irrefl _ (h.2.1 v hm)

/-- If `t = node v l h` is ordered and its function does not depend on `v` (because an equal
tree does not mention `v`), the two children denote the same function. -/
theorem children_eq_of_indep {v : Nat} {lo hi t2 : Tree} (ho : Ordered (node v lo hi)) (h2 : ¬ t2.Mem v)
    (he : ∀ x, (node v lo hi).eval x = t2.eval x) (x : Assign) : lo.eval x = hi.eval x := by
  have h0 := he (set x v false)
  have h1 := he (set x v true)
  rw [eval_set_of_not_mem h2] at h0 h1
  simp only [eval, set_same] at h0 h1
  simp only [Bool.false_eq_true, if_false, if_true] at h0 h1
  rw [eval_set_of_not_mem (not_mem_lo ho)] at h0
  rw [eval_set_of_not_mem (not_mem_hi ho)] at h1
  rw [h0, h1]

/-- Canonicity: ordered reduced trees denoting the same function are equal. -/
theorem canonical : ∀ (n : Nat) (t1 t2 : Tree), t1.size + t2.size ≤ n →
    t1.Ordered → t2.Ordered → t1.Reduced → t2.Reduced →
    (∀ x, t1.eval x = t2.eval x) → t1 = t2 := by
  intro n
  induction n with
  | zero =>
    intro t1 t2 hn _ _ _ _ he
    have := he (fun _ => false)
    cases t1 <;> cases t2 <;> simp_all [size, eval]
  | succ n ih =>
    intro t1 t2 hn o1 o2 r1 r2 he
    -- a tree whose root variable is absent from the other tree is not reduced
    have key : ∀ (v : Nat) (lo hi t : Tree), lo.size + hi.size ≤ n →
        (node v lo hi).Ordered → (node v lo hi).Reduced → ¬ t.Mem v →
        (∀ x, (node v lo hi).eval x = t.eval x) → False := by
      intro v lo hi t hs o r hm he
      exact r.1 (ih lo hi hs o.2.2.1 o.2.2.2 r.2.1 r.2.2 (children_eq_of_indep o hm he))
    cases t1 with
    | bot =>
      cases t2 with
      | bot => rfl
      | top => have := he (fun _ => false); simp [eval] at this
      | node w l2 h2 =>
        exact (key w l2 h2 bot (by simp [size] at hn; omega) o2 r2 (by simp [Mem])
          (fun x => (he x).symm)).elim
    | top =>
      cases t2 with
      | bot => have := he (fun _ => false); simp [eval] at this
      | top => rfl
      | node w l2 h2 =>
        exact (key w l2 h2 top (by simp [size] at hn; omega) o2 r2 (by simp [Mem])
          (fun x => (he x).symm)).elim
    | node v l1 h1 =>
      cases t2 with
      | bot => exact (key v l1 h1 bot (by simp [size] at hn; omega) o1 r1 (by simp [Mem]) he).elim
      | top => exact (key v l1 h1 top (by simp [size] at hn; omega) o1 r1 (by simp [Mem]) he).elim
      | node w l2 h2 =>
        simp only [size] at hn
        rcases Nat.lt_trichotomy v w with hlt | heq | hgt
        · refine (key v l1 h1 (node w l2 h2) (by omega) o1 r1 ?_ he).elim
          simp only [Mem]
          rintro (h | h | h)
          · omega
          · exact absurd (o2.1 v h) (by omega)
          · exact absurd (o2.2.1 v h) (by omega)
        · subst heq
          have el : ∀ x, l1.eval x = l2.eval x := by
            intro x
            have := he (set x v false)
            simp only [eval, set_same, Bool.false_eq_true, if_false] at this
            rwa [eval_set_of_not_mem (not_mem_lo o1), eval_set_of_not_mem (not_mem_lo o2)] at this
          have eh : ∀ x, h1.eval x = h2.eval x := by
            intro x
            have := he (set x v true)
            simp only [eval, set_same, if_true] at this
            rwa [eval_set_of_not_mem (not_mem_hi o1), eval_set_of_not_mem (not_mem_hi o2)] at this
          rw [ih l1 l2 (by omega) o1.2.2.1 o2.2.2.1 r1.2.1 r2.2.1 el,
            ih h1 h2 (by omega) o1.2.2.2 o2.2.2.2 r1.2.2 r2.2.2 eh]
        · refine (key w l2 h2 (node v l1 h1) (by omega) o2 r2 ?_ (fun x => (he x).symm)).elim
          simp only [Mem]
          rintro (h | h | h)
          · omega
          · exact absurd (o1.1 w h) (by omega)
          · exact absurd (o1.2.1 w h) (by omega)

theorem eq_of_eval {t1 t2 : Tree} (o1 : t1.Ordered) (o2 : t2.Ordered) (r1 : t1.Reduced)
    (r2 : t2.Reduced) (he : ∀ x, t1.eval x = t2.eval x) : t1 = t2 :=
  canonical _ t1 t2 (Nat.le_refl _) o1 o2 r1 r2 he

theorem dependsOn_mem {t : Tree} {v : Nat} (h : BFun.DependsOn t.eval v) : t.Mem v := by
  obtain ⟨x, hx⟩ := h
  refine Classical.byContradiction fun hm => hx (eval_congr ?_)
  intro w hw
  by_cases e : w = v
  · subst e; exact absurd hw hm
  · simp [e]

theorem ne_eval {t1 t2 : Tree} (o1 : t1.Ordered) (o2 : t2.Ordered) (r1 : t1.Reduced)
    (r2 : t2.Reduced) (he : t1 ≠ t2) : ∃ x, t1.eval x ≠ t2.eval x :=
  Classical.byContradiction fun h => he (eq_of_eval o1 o2 r1 r2 fun x =>
    Classical.byContradiction fun hx => h ⟨x, hx⟩)

/-- In an ordered reduced tree the labels are exactly the variables the function depends on. -/
theorem mem_iff_dependsOn {t : Tree} (o : t.Ordered) (r : t.Reduced) (v : Nat) : t.Mem v ↔ BFun.DependsOn t.eval v := by
  refine ⟨?_, dependsOn_mem⟩
  induction t with
  | bot => intro h; exact h.elim
  | top => intro h; exact h.elim
  | node w lo hi ihl ihh =>
    have nl := not_mem_lo o
    have nh := not_mem_hi o
    have cong : ∀ {t : Tree} {x y : Assign}, ¬ t.Mem w → (∀ u, u ≠ w → x u = y u) → t.eval x = t.eval y := by
      intro t x y hn hxy
      refine eval_congr fun u hu => hxy u ?_
      rintro rfl; exact hn hu
    rintro (h | h | h)
    · subst h
      obtain ⟨x, hx⟩ := ne_eval o.2.2.1 o.2.2.2 r.2.1 r.2.2 r.1
      refine ⟨set x v false, ?_⟩
      simp only [eval, set_same, Bool.false_eq_true, if_false, Bool.not_false, if_true]
      rw [cong (y := x) nl (fun u hu => by simp [set, hu])]
      rw [cong (t := hi) (y := x) nh (fun u hu => by simp [set, hu])]
      exact hx
    · obtain ⟨x, hx⟩ := ihl o.2.2.1 r.2.1 h
      have hwv : w ≠ v := fun e => nl (e ▸ h)
      refine ⟨set x w false, ?_⟩
      simp only [eval, set_same, hwv, Bool.false_eq_true, if_false]
      rw [cong (x := set x w false) (y := x) nl (fun u hu => by simp [set, hu])]
      rw [cong (x := fun u => if u = v then !(set x w false u) else set x w false u)
        (y := fun u => if u = v then !x u else x u) nl (fun u hu => by simp [set, hu])]
      exact hx
    · obtain ⟨x, hx⟩ := ihh o.2.2.2 r.2.2 h
      have hwv : w ≠ v := fun e => nh (e ▸ h)
      refine ⟨set x w true, ?_⟩
      simp only [eval, set_same, hwv, if_false, if_true]
      rw [cong (x := set x w true) (y := x) nh (fun u hu => by simp [set, hu])]
      rw [cong (x := fun u => if u = v then !(set x w true u) else set x w true u)
        (y := fun u => if u = v then !x u else x u) nh (fun u hu => by simp [set, hu])]
      exact hx

/-- An ordered reduced tree other than `bot` is satisfiable. -/
theorem sat_of_ne_bot {t : Tree} (o : t.Ordered) (r : t.Reduced) (h : t ≠ .bot) : ∃ x, t.eval x = true := by
  obtain ⟨x, hx⟩ := ne_eval (t2 := .bot) o trivial r trivial h
  exact ⟨x, by simpa [eval] using hx⟩

theorem uniqueSol_bot : ¬ BFun.UniqueSol Tree.bot.eval := by
  rintro ⟨x, hx, _⟩; simp [eval] at hx

theorem uniqueSol_top : BFun.UniqueSol Tree.top.eval :=
  ⟨fun _ => false, rfl, fun _ _ v hv => (dependsOn_mem hv).elim⟩

theorem uniqueSol_two {v : Nat} {lo hi : Tree} (o : (node v lo hi).Ordered) (r : (node v lo hi).Reduced) (hl : lo ≠ .bot)
    (hh : hi ≠ .bot) : ¬ BFun.UniqueSol (node v lo hi).eval := by
  rintro ⟨x, _, h⟩
  obtain ⟨a, ha⟩ := sat_of_ne_bot o.2.2.1 r.2.1 hl
  obtain ⟨b, hb⟩ := sat_of_ne_bot o.2.2.2 r.2.2 hh
  have hd := (mem_iff_dependsOn o r v).1 (Or.inl rfl)
  have h1 := h (set a v false) (by simp only [eval, set_same, Bool.false_eq_true, if_false]; rw [eval_set_of_not_mem (not_mem_lo o)]; exact ha) v hd
  have h2 := h (set b v true) (by simp only [eval, set_same, if_true]; rw [eval_set_of_not_mem (not_mem_hi o)]; exact hb) v hd
  rw [set_same] at h1 h2
  rw [← h1] at h2; exact absurd h2 (by decide)

/-- One child is `bot`: the solutions are those of the other child. -/
theorem uniqueSol_one {v : Nat} {lo hi c : Tree} {b : Bool} (o : (node v lo hi).Ordered) (r : (node v lo hi).Reduced)
    (hb : ∀ x, (node v lo hi).eval x = if x v = b then c.eval x else false) (ho : c.Ordered) (hr : c.Reduced) (hm : ¬ c.Mem v)
    (hmem : ∀ w, (node v lo hi).Mem w ↔ w = v ∨ c.Mem w) :
    BFun.UniqueSol (node v lo hi).eval ↔ BFun.UniqueSol c.eval := by
  have hd : ∀ w, BFun.DependsOn (node v lo hi).eval w ↔ w = v ∨ BFun.DependsOn c.eval w := by
    intro w; rw [← mem_iff_dependsOn o r, ← mem_iff_dependsOn ho hr]; exact hmem w
  constructor
  · rintro ⟨x, hx, h⟩
    rw [hb] at hx
    split at hx
    · rename_i hxv
      refine ⟨x, hx, fun y hy w hw => ?_⟩
      have := h (set y v b) (by rw [hb]; simp only [set_same, if_true]; rw [eval_set_of_not_mem hm]; exact hy) w ((hd w).2 (Or.inr hw))
      have hwv : w ≠ v := by rintro rfl; exact hm (dependsOn_mem hw)
      simpa [set, hwv] using this
    · exact absurd hx (by decide)
  · rintro ⟨x, hx, h⟩
    refine ⟨set x v b, by rw [hb]; simp only [set_same, if_true]; rw [eval_set_of_not_mem hm]; exact hx, fun y hy w hw => ?_⟩
    rw [hb] at hy
    split at hy
    · rename_i hyv
      rcases (hd w).1 hw with e | hw'
      · subst e; rw [set_same]; exact hyv
      · have hwv : w ≠ v := by rintro rfl; exact hm (dependsOn_mem hw')
        have := h y hy w hw'
        simpa [set, hwv] using this
    · exact absurd hy (by decide)

end Tree
end LBDD
