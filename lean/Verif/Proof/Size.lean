import Verif.Proof.Det
import Verif.Proof.Limited
/-! How many nodes the canonical BDD of a combination of functions can have. -/
namespace LBDD

/-- Below `k` take the values of `x`, from `k` on those of `y`. -/
def mix (k : Nat) (x y : Assign) : Assign := fun w => if w < k then x w else y w

/-- `u` is a subtree of the tree, leaves included. -/
def Tree.SubL : Tree → Tree → Prop
  | .bot, u => u = .bot
  | .top, u => u = .top
  | .node v l h, u => u = .node v l h ∨ l.SubL u ∨ h.SubL u

namespace Tree
theorem SubL.refl (t : Tree) : t.SubL t := by
  cases t
  · exact rfl
  · exact rfl
  · exact Or.inl rfl

theorem Sub.subL {t u : Tree} (h : t.Sub u) : t.SubL u := by
  induction t with
  | bot => exact h.elim
  | top => exact h.elim
  | node v l r ihl ihh =>
    rcases h with h | h | h
    · exact Or.inl h
    · exact Or.inr (Or.inl (ihl h))
    · exact Or.inr (Or.inr (ihh h))

theorem SubL.cases {t u : Tree} (h : t.SubL u) : u = .bot ∨ u = .top ∨ t.Sub u := by
  induction t with
  | bot => exact Or.inl h
  | top => exact Or.inr (Or.inl h)
  | node v l r ihl ihh =>
    rcases h with h | h | h
    · exact Or.inr (Or.inr (Or.inl h))
    · rcases ihl h with h | h | h
      · exact Or.inl h
      · exact Or.inr (Or.inl h)
      · exact Or.inr (Or.inr (Or.inr (Or.inl h)))
    · rcases ihh h with h | h | h
      · exact Or.inl h
      · exact Or.inr (Or.inl h)
      · exact Or.inr (Or.inr (Or.inr (Or.inr h)))

theorem Sub.ordered {t u : Tree} (h : t.Sub u) (o : t.Ordered) : u.Ordered := by
  induction t with
  | bot => exact h.elim
  | top => exact h.elim
  | node v l r ihl ihh =>
    rcases h with h | h | h
    · exact h ▸ o
    · exact ihl h o.2.2.1
    · exact ihh h o.2.2.2

theorem Sub.reduced {t u : Tree} (h : t.Sub u) (o : t.Reduced) : u.Reduced := by
  induction t with
  | bot => exact h.elim
  | top => exact h.elim
  | node v l r ihl ihh =>
    rcases h with h | h | h
    · exact h ▸ o
    · exact ihl h o.2.1
    · exact ihh h o.2.2

theorem Sub.inner {t u : Tree} (h : t.Sub u) : u ≠ .bot ∧ u ≠ .top := by
  induction t with
  | bot => exact h.elim
  | top => exact h.elim
  | node v l r ihl ihh =>
    rcases h with h | h | h
    · subst h; exact ⟨nofun, nofun⟩
    · exact ihl h
    · exact ihh h

/-- A subtree of an ordered tree is the tree with an initial part of the variables fixed. -/
theorem Sub.fixed {t u : Tree} (h : t.Sub u) (o : t.Ordered) : ∃ k x, ∀ y, u.eval y = t.eval (mix k x y) := by
  have step : ∀ {v : Nat} {l c : Tree} {b : Bool} (k : Nat) (x : Assign), (∀ w, l.Mem w → v < w) → (∀ y, c.eval y = l.eval (mix k x y)) →
      ∀ y, c.eval y = l.eval (mix (max k (v + 1)) (set x v b) y) ∧ mix (max k (v + 1)) (set x v b) y v = b := by
    intro v l c b k x hl hc y
    constructor
    · rw [hc]
      refine eval_congr fun w hw => ?_
      have := hl w hw
      unfold mix set
      by_cases h1 : w < k
      · rw [if_pos h1, if_pos (by omega), if_neg (by omega)]
      · rw [if_neg h1, if_neg (by omega)]
    · unfold mix
      rw [if_pos (by omega), set_same]
  induction t with
  | bot => exact h.elim
  | top => exact h.elim
  | node v l r ihl ihh =>
    rcases h with h | h | h
    · refine ⟨0, fun _ => false, fun y => ?_⟩
      rw [h]; exact eval_congr fun w _ => by simp [mix]
    · obtain ⟨k, x, hx⟩ := ihl h o.2.2.1
      refine ⟨max k (v + 1), set x v false, fun y => ?_⟩
      obtain ⟨h1, h2⟩ := step (b := false) k x o.1 hx y
      simp only [eval, h2]
      rw [h1]; rfl
    · obtain ⟨k, x, hx⟩ := ihh h o.2.2.2
      refine ⟨max k (v + 1), set x v true, fun y => ?_⟩
      obtain ⟨h1, h2⟩ := step (b := true) k x o.2.1 hx y
      simp only [eval, h2]
      rw [h1]; rfl

/-- Fixing an initial part of the variables of an ordered tree gives a subtree. -/
theorem fixed_subL {t : Tree} (o : t.Ordered) (k : Nat) (x : Assign) : ∃ u, t.SubL u ∧ ∀ y, u.eval y = t.eval (mix k x y) := by
  induction t with
  | bot => exact ⟨.bot, rfl, fun _ => rfl⟩
  | top => exact ⟨.top, rfl, fun _ => rfl⟩
  | node v l r ihl ihh =>
    by_cases hv : v < k
    · cases e : x v
      · obtain ⟨u, h1, h2⟩ := ihl o.2.2.1
        refine ⟨u, Or.inr (Or.inl h1), fun y => ?_⟩
        simp only [eval]
        rw [show mix k x y v = false by unfold mix; rw [if_pos hv, e], h2]; rfl
      · obtain ⟨u, h1, h2⟩ := ihh o.2.2.2
        refine ⟨u, Or.inr (Or.inr h1), fun y => ?_⟩
        simp only [eval]
        rw [show mix k x y v = true by unfold mix; rw [if_pos hv, e], h2]; rfl
    · refine ⟨.node v l r, .refl _, fun y => ?_⟩
      refine eval_congr fun w hw => ?_
      unfold mix
      rcases hw with hw | hw | hw
      · rw [if_neg (by omega)]
      · have := o.1 w hw; rw [if_neg (by omega)]
      · have := o.2.1 w hw; rw [if_neg (by omega)]
end Tree

/-- Elementwise relation of two lists. -/
def Pairs {α β : Type} (R : α → β → Prop) : List α → List β → Prop
  | [], [] => True
  | a :: as, b :: bs => R a b ∧ Pairs R as bs
  | _, _ => False

theorem Pairs.length {α β : Type} {R : α → β → Prop} : ∀ {as : List α} {bs : List β}, Pairs R as bs → as.length = bs.length
  | [], [], _ => rfl
  | _ :: _, _ :: _, h => by simp [h.2.length]
  | [], _ :: _, h => h.elim
  | _ :: _, [], h => h.elim

/-- Each inner subtree of a combination of trees is the same combination of subtrees. -/
theorem sub_args (V : List Bool → Bool) {t : Tree} {ts : List Tree} (o : t.Ordered) (os : ∀ t' ∈ ts, t'.Ordered)
    (he : ∀ x, t.eval x = V (ts.map (fun t => t.eval x))) {u : Tree} (hu : t.Sub u) :
    ∃ us, Pairs Tree.SubL ts us ∧ ∀ x, u.eval x = V (us.map (fun t => t.eval x)) := by
  obtain ⟨k, x, hx⟩ := hu.fixed o
  have key : ∀ ts : List Tree, (∀ t' ∈ ts, t'.Ordered) → ∃ us, Pairs Tree.SubL ts us ∧
      ∀ y, us.map (fun t => t.eval y) = ts.map (fun t => t.eval (mix k x y)) := by
    intro ts
    induction ts with
    | nil => intro _; exact ⟨[], trivial, fun _ => rfl⟩
    | cons t ts ih =>
      intro os
      obtain ⟨us, h1, h2⟩ := ih (fun t' h => os t' (by simp [h]))
      obtain ⟨u, h3, h4⟩ := Tree.fixed_subL (os t (by simp)) k x
      exact ⟨u :: us, ⟨h3, h1⟩, fun y => by simp only [List.map_cons, h4, h2]⟩
  obtain ⟨us, h1, h2⟩ := key ts os
  exact ⟨us, h1, fun y => by rw [hx, he, h2]⟩

/-- All ways to choose one element of each list. -/
def choices : List (List Nat) → List (List Nat)
  | [] => [[]]
  | a :: as => a.flatMap (fun x => (choices as).map (x :: ·))

theorem length_flatMap_const {α β : Type} {n : Nat} (f : α → List β) (hf : ∀ a, (f a).length = n) : ∀ l : List α, (l.flatMap f).length = l.length * n
  | [] => by simp
  | a :: l => by rw [List.flatMap_cons, List.length_append, length_flatMap_const f hf l, hf, List.length_cons, Nat.add_mul]; omega

/-- Product of the sizes. -/
def sizesProd : List (List Nat) → Nat
  | [] => 1
  | a :: as => a.length * sizesProd as

theorem choices_length : ∀ l, (choices l).length = sizesProd l
  | [] => rfl
  | a :: as => by
    unfold choices sizesProd
    exact length_flatMap_const _ (fun x => by rw [List.length_map, choices_length as]) a

theorem mem_choices : ∀ {ls : List (List Nat)} {xs : List Nat}, Pairs (fun x l => x ∈ l) xs ls → xs ∈ choices ls
  | [], [], _ => by simp [choices]
  | l :: ls, x :: xs, h => by
    simp only [choices, List.mem_flatMap, List.mem_map]
    exact ⟨x, h.1, xs, mem_choices h.2, rfl⟩
  | [], _ :: _, h => h.elim
  | _ :: _, [], h => h.elim

/-- Pigeonhole. -/
theorem pigeon {α β : Type} (R : α → β → Prop) : ∀ {l : List α} {m : List β}, l.Nodup → (∀ x ∈ l, ∃ y ∈ m, R x y) →
    (∀ x x' y, x ∈ l → x' ∈ l → R x y → R x' y → x = x') → l.length ≤ m.length
  | [], _, _, _, _ => Nat.zero_le _
  | a :: l, m, hn, hs, hi => by
    classical
    obtain ⟨y, hy, hr⟩ := hs a (by simp)
    have hn' := List.nodup_cons.1 hn
    have := pigeon R (l := l) (m := m.erase y) hn'.2 (fun x hx => by
      obtain ⟨y', hy', hr'⟩ := hs x (by simp [hx])
      refine ⟨y', (List.mem_erase_of_ne ?_).2 hy', hr'⟩
      rintro rfl
      exact hn'.1 (hi a x y' (by simp) (by simp [hx]) hr hr' ▸ hx))
      (fun x x' y h h' => hi x x' y (by simp [h]) (by simp [h']))
    rw [List.length_erase_of_mem hy] at this
    have : 0 < m.length := List.length_pos_of_mem hy
    simp only [List.length_cons]; omega
end LBDD
