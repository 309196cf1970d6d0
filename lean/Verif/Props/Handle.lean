import Verif.Model.Handle
import Verif.Props.Query
import Verif.Props.Canon
/-!
# Walking a BDD through its handles; constants (C65, C66)
-/
namespace LBDD
section
variable {cfg : Cfg} {u : Use} {a : Api} {p f g : Nat} {F G : List Bool → Bool}

/-! ## C65 -/

/-- C65: `is_botsink()`, `is_topsink()` and `is_terminal()` of a held BDD never fail, change nothing and recognise exactly the two sinks. -/
theorem C65_sinks (hR : Reachable cfg u a) (hp : a.Holds p) :
    isBot cfg p a.mgr = .ok (decide (p = botId)) a.mgr ∧ isTop cfg p a.mgr = .ok (decide (p = topId)) a.mgr ∧
      isTerm cfg p a.mgr = .ok (decide (p = botId ∨ p = topId)) a.mgr := by
  obtain ⟨t, ht⟩ := hR.good.any hp
  refine ⟨isBot_ok hR.good ht, isTop_ok hR.good ht, ?_⟩
  rw [isTerm_ok hR.good ht rfl]
  congr 1
  rw [decide_eq_decide]
  show p < 2 ↔ p = 0 ∨ p = 1
  omega

/-- C65: on a held BDD that is not a sink, `variable()`, `low()` and `high()` return, the two children differ, they are BDDs themselves, and the
function is the one of `high()` where the variable is true and the one of `low()` where it is false. -/
theorem C65_walk (hR : Reachable cfg u a) (hp : a.Holds p) (hb : p ≠ botId) (ht : p ≠ topId) (dF : Denotes cfg a.mgr p F) :
    ∃ v l h L H, nodeVar p a.mgr = .ok v a.mgr ∧ lowOf p a.mgr = .ok l a.mgr ∧ highOf p a.mgr = .ok h a.mgr ∧
      v < a.mgr.nvars ∧ l ≠ h ∧ Denotes cfg a.mgr l L ∧ Denotes cfg a.mgr h H ∧
      ∀ x, Covers a.mgr x → F x = if x[v]? = some true then H x else L x := by
  obtain ⟨t, rt⟩ := hR.good.any hp
  have p2 : 2 ≤ p := by
    have h0 : p ≠ 0 := hb
    have h1 : p ≠ 1 := ht
    omega
  obtain ⟨tl, th, e, hl, hx, rl, rh⟩ := rt.inv p2
  have hv : (a.mgr.cells p).index < a.mgr.nvars := hR.good.mem_lt rt (by rw [e]; exact Or.inl rfl)
  refine ⟨(a.mgr.cells p).index, (a.mgr.cells p).lo, (a.mgr.cells p).hi, _, _, ?_, lowOf_ok rt p2, highOf_ok rt p2, hv, ?_,
    denotes_repr hR.good rl, denotes_repr hR.good rh, ?_⟩
  · unfold nodeVar; rw [M.get_bind_apply, hl]; rfl
  · intro he
    rw [he] at rl
    have := hR.good.reduced rt
    rw [e] at this
    exact this.1 (rl.fn rh)
  · intro x hc
    rw [dF.eq (denotes_repr hR.good rt) hc, e]
    have hl : (a.mgr.cells p).index < x.length := Nat.lt_of_lt_of_le hv hc
    show (if asg x _ then _ else _) = _
    unfold asg
    rw [List.getD_eq_getElem?_getD, List.getElem?_eq_getElem hl]
    cases x[(a.mgr.cells p).index] <;> rfl

/-- C65, in histories that respect the variable order: the children are the two cofactors of the function, and the variable of the root is the
smallest one the function depends on. -/
theorem C65_cofactors (hR : Reachable cfg .ordered a) (hp : a.Holds p) (hb : p ≠ botId) (ht : p ≠ topId) (dF : Denotes cfg a.mgr p F) :
    ∃ v l h, nodeVar p a.mgr = .ok v a.mgr ∧ lowOf p a.mgr = .ok l a.mgr ∧ highOf p a.mgr = .ok h a.mgr ∧
      Denotes cfg a.mgr l (fun x => F (x.set v false)) ∧ Denotes cfg a.mgr h (fun x => F (x.set v true)) ∧
      Depends a.mgr F v ∧ ∀ w, Depends a.mgr F w → v ≤ w := by
  obtain ⟨t, rt⟩ := hR.good.any hp
  have p2 : 2 ≤ p := by
    have h0 : p ≠ 0 := hb
    have h1 : p ≠ 1 := ht
    omega
  obtain ⟨tl, th, e, hl, hx, rl, rh⟩ := rt.inv p2
  have hv : (a.mgr.cells p).index < a.mgr.nvars := hR.good.mem_lt rt (by rw [e]; exact Or.inl rfl)
  have ho := hR.good.ord (Use.ordered_iff.2 rfl) _ _ rt
  have hr := hR.good.reduced rt
  have key : ∀ (b : Bool) x, Covers a.mgr x → F (x.set (a.mgr.cells p).index b) = (if b then th else tl).eval (asg x) := by
    intro b x hc
    have hl : (a.mgr.cells p).index < x.length := Nat.lt_of_lt_of_le hv hc
    rw [dF.eq (denotes_repr hR.good rt) (by unfold Covers; rw [List.length_set]; exact hc), e]
    show (if asg _ _ then _ else _) = _
    rw [asg_set hl, if_pos rfl]
    rw [e] at ho
    cases b
    · show tl.eval _ = tl.eval _
      refine Tree.eval_congr fun w hw => ?_
      rw [asg_set hl, if_neg]
      intro ew; subst ew; exact Tree.not_mem_lo ho hw
    · show th.eval _ = th.eval _
      refine Tree.eval_congr fun w hw => ?_
      rw [asg_set hl, if_neg]
      intro ew; subst ew; exact Tree.not_mem_hi ho hw
  refine ⟨(a.mgr.cells p).index, (a.mgr.cells p).lo, (a.mgr.cells p).hi, ?_, lowOf_ok rt p2, highOf_ok rt p2,
    (denotes_repr hR.good rl).congr fun x hc => (key false x hc).symm, (denotes_repr hR.good rh).congr fun x hc => (key true x hc).symm, ?_, ?_⟩
  · unfold nodeVar; rw [M.get_bind_apply, hl]; rfl
  · rw [depends_iff hR.good rt dF, ← Tree.mem_iff_dependsOn ho hr, e]; exact Or.inl rfl
  · intro w hw
    rw [depends_iff hR.good rt dF, ← Tree.mem_iff_dependsOn ho hr, e] at hw
    rw [e] at ho
    rcases hw with hw | hw | hw
    · exact Nat.le_of_eq hw.symm
    · exact Nat.le_of_lt (ho.1 w hw)
    · exact Nat.le_of_lt (ho.2.1 w hw)

/-! ## C66 -/

/-- C66, in histories that respect the variable order: a held BDD is the false sink exactly when its function is constantly false (the function is
unsatisfiable), and the true sink exactly when it is constantly true. `C66_refuted` shows that `xor_rec` destroys this. -/
theorem C66_constants_partial (hR : Reachable cfg .ordered a) (hp : a.Holds p) (dF : Denotes cfg a.mgr p F) :
    (p = botId ↔ ∀ x, Covers a.mgr x → F x = false) ∧ (p = topId ↔ ∀ x, Covers a.mgr x → F x = true) := by
  obtain ⟨t, rt⟩ := hR.good.any hp
  have ho := hR.good.ord (Use.ordered_iff.2 rfl) _ _ rt
  have hr := hR.good.reduced rt
  have rb : Repr a.mgr.cells botId .bot := .bot
  have rtp : Repr a.mgr.cells topId .top := .top
  refine ⟨⟨?_, fun h => ?_⟩, ⟨?_, fun h => ?_⟩⟩
  · intro e x hc; subst e; exact dF.eq (denotes_repr hR.good rb) hc
  · have : t = .bot := Tree.eq_of_eval ho (hR.good.ord (Use.ordered_iff.2 rfl) _ _ rb) hr (hR.good.reduced rb)
      (eval_eq_of_lists hR.good rt rb fun x hc => by
        rw [show evaluate cfg a.mgr p x = _ from dF x hc, h x hc]; exact (denotes_repr hR.good rb x hc).symm)
    subst this
    exact hR.good.repr_inj rt rb
  · intro e x hc; subst e; exact dF.eq (denotes_repr hR.good rtp) hc
  · have : t = .top := Tree.eq_of_eval ho (hR.good.ord (Use.ordered_iff.2 rfl) _ _ rtp) hr (hR.good.reduced rtp)
      (eval_eq_of_lists hR.good rt rtp fun x hc => by
        rw [show evaluate cfg a.mgr p x = _ from dF x hc, h x hc]; exact (denotes_repr hR.good rtp x hc).symm)
    subst this
    exact hR.good.repr_inj rt rtp

/-- C66, every history: the sinks are constant. -/
theorem C66_sinks_constant (hR : Reachable cfg u a) : Denotes cfg a.mgr botId (fun _ => false) ∧ Denotes cfg a.mgr topId (fun _ => true) :=
  ⟨denotes_repr hR.good (t := .bot) .bot, denotes_repr hR.good (t := .top) .top⟩

end

/-! ## Concrete cases -/

/-- (x0 xor x1) ∧ x0 ∧ x1, built with `xor_rec` and `and_rec`. -/
def zeroXor (nd : Bool) : Api := stateAfter (envOf nd) .parity
  [.call (.projection 0) [], .call (.projection 1) [], .call .xor [0, 1], .call .and [2, 0], .call .and [3, 1]]

theorem zeroXor_hs (nd : Bool) : (zeroXor nd).hs = [some 2, some 3, some 5, some 6, some 8] := by
  cases nd <;> decide +kernel

theorem zeroXor_nvars (nd : Bool) : (zeroXor nd).mgr.nvars = 2 := by cases nd <;> decide +kernel

theorem zeroXor_eval (nd b0 b1 : Bool) : evalsB (envOf nd) (zeroXor nd).mgr 8 [b0, b1] false = true := by
  revert nd b0 b1; decide +kernel

/-- The full C66 is false: with `xor_rec` a held BDD may be constantly false without being the false sink. -/
theorem C66_refuted : ∀ nd : Bool, ∃ a p, Reachable (envOf nd) .parity a ∧ a.Holds p ∧ p ≠ botId ∧ p ≠ topId ∧
    Denotes (envOf nd) a.mgr p (fun _ => false) := by
  intro nd
  have hR : Reachable (envOf nd) .parity (zeroXor nd) := stateAfter_reachable _ _ _
  have hh : (zeroXor nd).Holds 8 := by unfold Api.Holds; rw [zeroXor_hs]; decide
  refine ⟨zeroXor nd, 8, hR, hh, by decide, by decide, ?_⟩
  intro x hx
  show evaluate _ _ _ _ = _
  rw [evaluate_take hR hh hx]
  unfold Covers at hx
  rw [zeroXor_nvars] at hx ⊢
  match x, hx with
  | b0 :: b1 :: _, _ =>
    simp only [List.take_succ_cons, List.take_zero]
    exact evalsB_sound (zeroXor_eval nd b0 b1)

/-- C65, C66: the demo state meets the hypotheses with a BDD that is not a sink. -/
example : ∃ F, Reachable (envOf false) .ordered (demo .ordered) ∧ (demo .ordered).Holds 9 ∧ 9 ≠ botId ∧ 9 ≠ topId ∧
    Denotes (envOf false) (demo .ordered).mgr 9 F := by
  have hh : (demo .ordered).Holds 9 := by unfold Api.Holds; rw [demo_hs]; decide
  obtain ⟨F, dF⟩ := holds_denotes (demo_reachable _) hh
  exact ⟨F, demo_reachable _, hh, by decide, by decide, dF⟩

end LBDD
