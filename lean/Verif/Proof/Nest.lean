import Verif.Proof.Hist
import Verif.Proof.Limited
import Verif.Proof.Text
import Verif.Proof.Clean
/-! Nesting depth. The recursive functions of the model take the number of nested calls as an argument and `hang` when it is used up. A larger
number changes nothing once the call no longer hangs, so a sufficient number bounds the nesting depth of the real recursion. -/
namespace LBDD

/-- `m` is `m'` cut off earlier: it does the same, or hangs. -/
def Cut {σ α : Type} (m m' : M σ α) : Prop := ∀ s, m s = .hang ∨ m s = m' s

section
variable {σ α β : Type}

theorem Cut.refl (m : M σ α) : Cut m m := fun _ => Or.inr rfl
theorem Cut.hang (m : M σ α) : Cut M.hang m := fun _ => Or.inl rfl
theorem Cut.trans {a b c : M σ α} (h1 : Cut a b) (h2 : Cut b c) : Cut a c := by
  intro s
  rcases h1 s with h | h
  · exact Or.inl h
  · rcases h2 s with h' | h'
    · exact Or.inl (h.trans h')
    · exact Or.inr (h.trans h')

theorem Cut.bind {m m' : M σ α} {f f' : α → M σ β} (h : Cut m m') (hf : ∀ a, Cut (f a) (f' a)) : Cut (m >>= f) (m' >>= f') := by
  intro s
  show M.bind m f s = .hang ∨ M.bind m f s = M.bind m' f' s
  unfold M.bind
  rcases h s with e | e
  · rw [e]; exact Or.inl rfl
  · rw [e]
    cases m' s with
    | ok a s' => exact hf a s'
    | throw s' => exact Or.inr rfl
    | assertFail => exact Or.inr rfl
    | ub => exact Or.inr rfl
    | hang => exact Or.inl rfl

theorem Cut.bind' {m : M σ α} {f f' : α → M σ β} (hf : ∀ a, Cut (f a) (f' a)) : Cut (m >>= f) (m >>= f') := Cut.bind (.refl m) hf

theorem Cut.ite {c : Prop} [Decidable c] {a a' b b' : M σ α} (h1 : Cut a a') (h2 : Cut b b') : Cut (if c then a else b) (if c then a' else b') := by
  split
  · exact h1
  · exact h2

/-- A family cut off at every depth is stable from the first depth that does not hang. -/
theorem Cut.stable {F : Nat → M σ α} (h : ∀ n, Cut (F n) (F (n + 1))) {n k : Nat} {s : σ} (hn : F n s ≠ .hang) (hk : F k s ≠ .hang) : F n s = F k s := by
  have up : ∀ j n, Cut (F n) (F (n + j)) := by
    intro j
    induction j with
    | zero => exact fun n => .refl _
    | succ j ih => exact fun n => (ih n).trans (h (n + j))
  rcases Nat.le_total n k with hle | hle
  · obtain ⟨j, rfl⟩ := Nat.le.dest hle
    exact (up j n s).resolve_left hn
  · obtain ⟨j, rfl⟩ := Nat.le.dest hle
    exact ((up j k s).resolve_left hk).symm

end

section
variable {cfg : Cfg} {md : Md} {refs : Nat → Nat} {s : Mgr}

theorem meld_cut {tag : Nat} {pick : Nat → Nat → Nat} {rec rec' : Nat → Nat → M Mgr Nat} (h : ∀ f g, Cut (rec f g) (rec' f g)) (f g : Nat) :
    Cut (meld cfg tag pick rec f g) (meld cfg tag pick rec' f g) := by
  unfold meld
  refine Cut.bind' fun o => ?_
  cases o with
  | some m => exact .refl _
  | none =>
    refine Cut.bind' fun _ => Cut.bind' fun _ => Cut.bind' fun _ => Cut.bind' fun _ => Cut.bind (h _ _) fun _ => ?_
    refine Cut.bind' fun _ => Cut.bind' fun _ => Cut.bind (h _ _) fun _ => .refl _

theorem andRec_cut : ∀ (n f g : Nat), Cut (andRec cfg n f g) (andRec cfg (n + 1) f g) := by
  intro n
  induction n with
  | zero => intro f g; exact .hang _
  | succ n ih =>
    intro f g
    rw [andRec, andRec]
    refine .ite (.refl _) (.ite (ih _ _) (.ite (.refl _) (.ite (.refl _) (.ite (.refl _) (.ite (.refl _) (meld_cut ih _ _))))))

theorem orRec_cut : ∀ (n f g : Nat), Cut (orRec cfg n f g) (orRec cfg (n + 1) f g) := by
  intro n
  induction n with
  | zero => intro f g; exact .hang _
  | succ n ih =>
    intro f g
    rw [orRec, orRec]
    refine .ite (.refl _) (.ite (ih _ _) (.ite (.refl _) (.ite (.refl _) (.ite (.refl _) (.ite (.refl _) (meld_cut ih _ _))))))

theorem xorRec_cut : ∀ (n f g : Nat), Cut (xorRec cfg n f g) (xorRec cfg (n + 1) f g) := by
  intro n
  induction n with
  | zero => intro f g; exact .hang _
  | succ n ih =>
    intro f g
    rw [xorRec, xorRec]
    refine .ite (.refl _) (.ite (ih _ _) (.ite (.refl _) (.ite (.refl _) (.ite (.refl _) (.ite (.refl _) (meld_cut ih _ _))))))

theorem args2_cut {a a' b b' : M Mgr Nat} (h1 : Cut a a') (h2 : Cut b b') : Cut (args2 cfg a b) (args2 cfg a' b') := by
  unfold args2
  exact .ite (.bind h2 fun _ => .bind h1 fun _ => .refl _) (.bind h1 fun _ => .bind h2 fun _ => .refl _)

theorem negateRec_cut : ∀ (n p : Nat), Cut (negateRec cfg n p) (negateRec cfg (n + 1) p) := by
  intro n
  induction n with
  | zero => intro p; exact .hang _
  | succ n ih =>
    intro p
    rw [negateRec, negateRec]
    refine .bind' fun _ => .ite (.refl _) (.bind' fun _ => .ite (.refl _) (.bind' fun _ => .bind' fun _ => .bind (args2_cut ?_ ?_) fun _ => .refl _))
    · exact .bind' fun _ => ih _
    · exact .bind' fun _ => ih _

theorem iteRec_cut : ∀ (n f g h : Nat), Cut (iteRec cfg n f g h) (iteRec cfg (n + 1) f g h) := by
  intro n
  induction n with
  | zero => intro f g h; exact .hang _
  | succ n ih =>
    intro f g h
    rw [iteRec, iteRec]
    refine .bind' fun _ => .ite (.refl _) (.bind' fun _ => .ite (.refl _) (.bind' fun _ => .ite (.refl _) (.bind' fun _ => .ite (.refl _) (.ite (.refl _)
      (.bind' fun _ => .ite (.refl _) (.bind' fun o => ?_))))))
    cases o with
    | some m => exact .refl _
    | none =>
      refine .bind' fun _ => .bind' fun _ => .bind' fun _ => .bind' fun _ => .bind' fun _ => .bind' fun _ => .bind (ih _ _ _) fun _ => ?_
      refine .bind' fun _ => .bind' fun _ => .bind' fun _ => .bind (ih _ _ _) fun _ => .refl _

theorem andLimRec_cut (limit : Nat) : ∀ (n f g : Nat), Cut (andLimRec cfg limit n f g) (andLimRec cfg limit (n + 1) f g) := by
  intro n
  induction n with
  | zero => intro f g; exact .hang _
  | succ n ih =>
    intro f g
    rw [andLimRec, andLimRec]
    refine .ite (.refl _) (.ite (ih _ _) (.ite (.refl _) (.ite (.refl _) (.ite (.refl _) (.ite (.refl _) (.bind' fun o => ?_))))))
    cases o with
    | some m => exact .refl _
    | none =>
      refine .bind' fun _ => .bind' fun _ => .bind' fun _ => .bind' fun _ => .bind (ih _ _) fun o => ?_
      cases o with
      | none => exact .refl _
      | some rk =>
        obtain ⟨r0, k0⟩ := rk
        refine .ite (.refl _) (.bind' fun _ => .bind' fun _ => .bind (ih _ _) fun o => ?_)
        cases o with
        | none => exact .refl _
        | some rk => exact .refl _

theorem ifUnmarked_cut {rec rec' : Nat → M Mgr (List Nat)} (h : ∀ p, Cut (rec p) (rec' p)) (p : Nat) : Cut (ifUnmarked rec p) (ifUnmarked rec' p) := by
  unfold ifUnmarked
  exact .bind' fun _ => .ite (.refl _) (h _)

theorem visit_cut (post : Bool) : ∀ (n p : Nat), Cut (visit cfg post n p) (visit cfg post (n + 1) p) := by
  intro n
  induction n with
  | zero => intro p; exact .hang _
  | succ n ih =>
    intro p
    rw [visit, visit]
    refine .bind' fun _ => .ite (.refl _) (.bind' fun _ => .bind' fun _ => .bind' fun _ => .bind' fun _ => .bind (ifUnmarked_cut ih _) fun _ => ?_)
    exact .bind' fun _ => .bind (ifUnmarked_cut ih _) fun _ => .refl _

theorem unmark_cut : ∀ (n p : Nat), Cut (unmark cfg n p) (unmark cfg (n + 1) p) := by
  intro n
  induction n with
  | zero => intro p; exact .hang _
  | succ n ih =>
    intro p
    rw [unmark, unmark]
    refine .bind' fun _ => .ite (.refl _) (.bind' fun _ => .ite (.bind' fun _ => .bind' fun _ => .bind (ih _) fun _ => .bind' fun _ => ih _) (.refl _))

theorem markRec_cut : ∀ (n p : Nat), Cut (markRec cfg n p) (markRec cfg (n + 1) p) := by
  intro n
  induction n with
  | zero => intro p; exact .hang _
  | succ n ih =>
    intro p
    rw [markRec, markRec]
    refine .bind' fun _ => .ite (.refl _) (.bind' fun _ => .ite (.refl _) (.bind' fun _ => .bind' fun _ => .bind (ih _) fun _ => .bind' fun _ => ih _))

theorem exactlyOne_cut : ∀ (n p : Nat), Cut (exactlyOne cfg n p) (exactlyOne cfg (n + 1) p) := by
  intro n
  induction n with
  | zero => intro p; exact .hang _
  | succ n ih =>
    intro p
    rw [exactlyOne, exactlyOne]
    exact .bind' fun _ => .ite (.refl _) (.bind' fun _ => .ite (.refl _) (.bind' fun _ => .bind' fun _ => .bind' fun _ => .ite (ih _)
      (.bind' fun _ => .ite (ih _) (.refl _))))

theorem findMgr_cut : ∀ (n p : Nat), Cut (findMgr cfg n p) (findMgr cfg (n + 1) p) := by
  intro n
  induction n with
  | zero => intro p; exact .hang _
  | succ n ih =>
    intro p
    rw [findMgr, findMgr]
    exact .bind' fun _ => .ite (.refl _) (.bind' fun _ => .bind' fun _ => .ite (.refl _) (.bind' fun _ => ih _))

theorem printIfUnmarked_cut {rec rec' : Nat → M Mgr (List Char)} (h : ∀ p, Cut (rec p) (rec' p)) (p : Nat) : Cut (printIfUnmarked rec p) (printIfUnmarked rec' p) := by
  unfold printIfUnmarked
  exact .bind' fun _ => .ite (.refl _) (h _)

theorem printRec_cut : ∀ (n p : Nat), Cut (printRec cfg n p) (printRec cfg (n + 1) p) := by
  intro n
  induction n with
  | zero => intro p; exact .hang _
  | succ n ih =>
    intro p
    rw [printRec, printRec]
    refine .bind' fun _ => .ite (.refl _) (.bind' fun _ => .bind' fun _ => .bind' fun _ => .bind' fun _ => .bind' fun _ => .bind' fun _ => .bind' fun _ => ?_)
    exact .bind (printIfUnmarked_cut ih _) fun _ => .bind (printIfUnmarked_cut ih _) fun _ => .refl _

/-! ### The trees -/

/-- A tree is not higher than the longest path. -/
theorem height_le_of_path {p : Nat} {t : Tree} (h : Repr s.cells p t) : ∃ q, Path s.cells p q t.height := by
  suffices H : ∀ (r k : Nat), Path s.cells r p k → ∃ q, Path s.cells r q (k + t.height) by
    obtain ⟨q, hq⟩ := H p 0 (.refl p)
    exact ⟨q, by simpa using hq⟩
  induction h with
  | bot => intro r k hp; exact ⟨_, hp⟩
  | top => intro r k hp; exact ⟨_, hp⟩
  | @node p tl th h2 hl _ _ _ ihl ihh =>
    intro r k hp
    by_cases hle : th.height ≤ tl.height
    · obtain ⟨q, hq⟩ := ihl r (k + 1) (.lo hp h2 hl)
      refine ⟨q, ?_⟩
      have : k + (Tree.node (s.cells p).index tl th).height = k + 1 + tl.height := by simp only [Tree.height]; omega
      exact this ▸ hq
    · obtain ⟨q, hq⟩ := ihh r (k + 1) (.hi hp h2 hl)
      refine ⟨q, ?_⟩
      have : k + (Tree.node (s.cells p).index tl th).height = k + 1 + th.height := by simp only [Tree.height]; omega
      exact this ▸ hq

theorem Tree.height_lt_of_ordered {nv : Nat} : ∀ {t : Tree} {k : Nat}, t.Ordered → (∀ w, t.Mem w → k ≤ w ∧ w < nv) → t.height ≤ nv - k
  | .bot, _, _, _ => Nat.zero_le _
  | .top, _, _, _ => Nat.zero_le _
  | .node v l h, k, ho, hm => by
    have hv := hm v (Or.inl rfl)
    have h1 := Tree.height_lt_of_ordered (nv := nv) (k := v + 1) ho.2.2.1 (fun w hw => ⟨ho.1 w hw, (hm w (Or.inr (Or.inl hw))).2⟩)
    have h2 := Tree.height_lt_of_ordered (nv := nv) (k := v + 1) ho.2.2.2 (fun w hw => ⟨ho.2.1 w hw, (hm w (Or.inr (Or.inr hw))).2⟩)
    simp only [Tree.height]; omega

end
end LBDD
