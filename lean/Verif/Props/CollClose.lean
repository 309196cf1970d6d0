import Verif.Props.CollBuild
/-!
# Calling `close_bdd` on an entry that is complete (C52)
-/
namespace LBDD
section
variable {cfg : Cfg} {c : Coll}

theorem closeArc_ok {d0 a : Nat} (hs : c.ins.length ≤ 2 ^ 64 - 3) (h0 : d0 ≤ a) (h1 : a < c.ins.length) : closeArc cfg d0 a c = .ok a c := by
  unfold closeArc
  rw [M.get_bind_apply, if_neg (by unfold cUndef; omega), if_neg (by unfold cTmpTop; omega), if_neg (by unfold cTmpBot; omega),
    M.assert_bind_apply (by simp [h0, h1])]
  rfl

/-- Arcs that are set and stay inside the entry are left alone. -/
theorem closeLoop_same {d0 stop : Nat} (hs : c.ins.length ≤ 2 ^ 64 - 3) : ∀ (n idx : Nat), stop ≤ idx + n →
    (∀ i, idx ≤ i → i < stop → ∃ e, c.ins[i]? = some e ∧ d0 ≤ e.lo ∧ e.lo < c.ins.length ∧ d0 ≤ e.hi ∧ e.hi < c.ins.length) →
    closeLoop cfg d0 stop n idx c = .ok () c
  | 0, idx, h1, h => by rw [closeLoop, if_neg (by omega)]; rfl
  | n + 1, idx, h1, h => by
    rw [closeLoop]
    split
    case isFalse => rfl
    case isTrue hlt =>
      obtain ⟨e, e1, e2, e3, e4, e5⟩ := h idx (Nat.le_refl _) hlt
      have hset : ∀ e', e' = e → ({ c with ins := c.ins.set idx e' } : Coll) = c := by
        intro e' he
        subst he
        have : c.ins.set idx e' = c.ins := by
          obtain ⟨h1, h2⟩ := List.getElem?_eq_some_iff.1 e1
          rw [← h2]; exact List.set_getElem_self h1
        rw [this]
      rw [M.bind_ok (insAt_ok e1), M.bind_ok (closeArc_ok hs e2 e3), M.modify_bind, hset _ rfl, M.bind_ok (closeArc_ok hs e4 e5), M.modify_bind, hset _ rfl]
      exact closeLoop_same hs n (idx + 1) (by omega) fun i hi => h i (by omega)

/-- C52: `close_bdd` on a collection whose last entry is complete succeeds and appends two more sinks to that entry; it evaluates as before and the other entries
are unchanged (as long as positions are not as large as the reserved indices). -/
theorem C52_close_again (hC : CReachable cfg c) (h0 : 0 < c.nrBdds) (hs : c.ins.length + 2 ≤ 2 ^ 64 - 3) :
    ∃ c' k, closeBdd cfg c = .ok () c' ∧ c'.nrBdds = c.nrBdds ∧ (∀ nr, nr + 1 < c.nrBdds → SameEntry c nr c' nr) ∧
      c.Size (c.nrBdds - 1) k ∧ c'.Size (c.nrBdds - 1) (k + 2) ∧
      ∀ x, CCovers c (c.nrBdds - 1) x → cEvaluate cfg c' (c.nrBdds - 1) x = cEvaluate cfg c (c.nrBdds - 1) x := by
  have hc := hC.inv
  obtain ⟨d0, d1, he, hw⟩ := hc.wf (c.nrBdds - 1) (by omega)
  obtain ⟨hl1, hl2⟩ := getLast_length_del hc
  have he2 := he.2
  rw [show c.nrBdds - 1 + 1 = c.nrBdds by omega, hl1] at he2
  have hd1 : c.ins.length = d1 := Option.some.inj he2
  subst hd1
  have h2 := hw.two
  let c1 : Coll := { c with ins := c.ins ++ [topInstr, botInstr] }
  let c' : Coll := { c1 with del := c.del.set (c.del.length - 1) (c.ins.length + 2) }
  have hget : ∀ i, i < c.ins.length → c1.ins[i]? = c.ins[i]? := fun i hi => List.getElem?_append_left hi
  have hlen : c1.ins.length = c.ins.length + 2 := by simp [c1]
  have hcl : closeBdd cfg c = .ok () c' := by
    unfold closeBdd
    rw [M.modify_bind, M.get_bind_apply]
    simp only
    have hdl : c1.del.length = c.nrBdds + 1 := hl2
    rw [if_neg (by show ¬ c.del.length < 2; omega)]
    have e1 : dlm (c1.del.length - 2) c1 = .ok d0 c1 := by
      rw [hdl, show c.nrBdds + 1 - 2 = c.nrBdds - 1 by omega]
      exact dlm_ok0 (d1 := c.ins.length) he
    have e2 : dlm (c1.del.length - 1) c1 = .ok c.ins.length c1 := by
      rw [hdl, show c.nrBdds + 1 - 1 = c.nrBdds - 1 + 1 by omega]
      exact dlm_ok1 (d0 := d0) he
    have hsub : subSz c.ins.length 2 = c.ins.length - 2 := by unfold subSz; rw [if_neg (by omega)]
    rw [M.bind_ok e1, M.bind_ok e2, hsub]
    have e3 : closeLoop cfg d0 (c.ins.length - 2) (c1.ins.length - d0) d0 c1 = .ok () c1 := by
      refine closeLoop_same (by omega) _ _ (by omega) fun i hi0 hi1 => ?_
      obtain ⟨e, a1, _, _, a2, a3, a4, a5⟩ := hw.inner i hi0 (by omega)
      exact ⟨e, by rw [hget i (by omega)]; exact a1, by omega, by omega, by omega, by omega⟩
    rw [M.bind_ok e3]
    show Res.ok () _ = _
    simp only [c', hlen]
    rfl
  have hdel : ∀ k, k < c.nrBdds → c'.del[k]? = c.del[k]? := by
    intro k hk
    show (c.del.set _ _)[k]? = _
    rw [List.getElem?_set_ne (by omega)]
  refine ⟨c', c.ins.length - d0, hcl, ?_, fun nr hn => ?_, ⟨d0, c.ins.length, he, by omega⟩, ⟨d0, c.ins.length + 2, ⟨?_, ?_⟩, by omega⟩, fun x hx => ?_⟩
  · show (c.del.set _ _).length - 1 = _
    rw [List.length_set]; rfl
  · obtain ⟨b0, b1, hb, hwb⟩ := hc.wf nr (by omega)
    have hle := hwb.len
    have hb2 := hwb.two
    obtain ⟨m, rfl⟩ : ∃ m, b1 = b0 + m := ⟨b1 - b0, by omega⟩
    refine ⟨b0, b0, m, hb, ⟨by rw [hdel _ (by omega)]; exact hb.1, by rw [hdel _ (by omega)]; exact hb.2⟩, fun i hi => ?_⟩
    obtain ⟨e, a1, a2⟩ := hwb.cases (i := b0 + i) (by omega) (by omega)
    refine ⟨e, e, a1, by rw [show c'.ins = c1.ins from rfl, hget _ (by omega)]; exact a1, rfl, fun _ => rfl, fun hin => ?_⟩
    obtain ⟨_, _, _, a3, _, a4, _⟩ := hwb.node (by omega) (by omega) a1 hin
    exact ⟨by omega, by omega, by omega, by omega⟩
  · rw [hdel _ (by omega)]; exact he.1
  · show (c.del.set _ _)[_]? = _
    rw [hl2, show c.nrBdds - 1 + 1 = c.nrBdds + 1 - 1 by omega, List.getElem?_set_self (by omega)]
  · obtain ⟨t, ht, hh⟩ := hw.exists _ d0 rfl (Nat.le_refl _) (by omega)
    have hm := hx.mem he hw ht
    rw [cEvaluate_ok he hw ht hm]
    have ht' : CRepr c'.ins d0 t := by
      have : ∀ {i : Nat} {t : Tree}, CRepr c.ins i t → CRepr c'.ins i t := by
        intro i t h
        have up : ∀ {i : Nat} {e : Instr}, c.ins[i]? = some e → c'.ins[i]? = some e := fun {i e} h => by
          rw [show c'.ins = c1.ins from rfl, hget _ (lt_of_get h)]; exact h
        induction h with
        | bot a b => exact .bot (up a) b
        | top a b => exact .top (up a) b
        | node a b _ _ ih1 ih2 => exact .node (up a) b ih1 ih2
      exact this ht
    unfold cEvaluate
    have hnb : c'.nrBdds = c.nrBdds := by show (c.del.set _ _).length - 1 = _; rw [List.length_set]; rfl
    have : ¬ c'.nrBdds ≤ c.nrBdds - 1 := by omega
    simp only [this, decide_false, Bool.and_false, Bool.false_eq_true, if_false]
    rw [hdel _ (by omega), he.1]
    exact cEvalLoop_ok ht' hm _ (by rw [show c'.ins = c1.ins from rfl, hlen]; omega)

/-- C52: an entry whose arcs were not set is noticed only when `close_bdd` is called a second time. -/
theorem C52_missing_noticed_late (hC : CReachable cfg c) (hd : cfg.ndebug = true) (h0 : 0 < c.nrBdds) (v : Nat) :
    ∃ c', (do let _ ← newBdd; let _ ← addBddNode cfg v; closeBdd cfg; closeBdd cfg) c = .throw c' := by
  have hc := hC.inv
  have h2 : 2 ≤ c.ins.length := by
    obtain ⟨d0, d1, he, hw⟩ := hc.wf 0 h0
    have := hw.two
    have := hw.len
    omega
  have e := addBNodes_ok hc hd [⟨v, .zero, .zero⟩] []
  unfold addBNodes at e
  obtain ⟨h, c1, e1, e2⟩ := bind_ok_inv e
  have e3 : c1 = opened c ([] ++ [bBlank ⟨v, .zero, .zero⟩]) := by
    unfold addBNodes at e2
    cases e2
    rfl
  show ∃ c', (newBdd >>= fun _ => addBddNode cfg v >>= fun _ => closeBdd cfg >>= fun _ => closeBdd cfg) c = .throw c'
  rw [M.bind_ok (newBdd_ok hc), M.bind_ok e1, e3, M.bind_ok (closeBdd_ok hc h2 _)]
  generalize hX : append c ([] ++ [bBlank ⟨v, .zero, .zero⟩] ++ [topInstr, botInstr]) = X
  have hxi : X.ins = c.ins ++ [bBlank ⟨v, .zero, .zero⟩, topInstr, botInstr] := by rw [← hX]; simp [append]
  obtain ⟨hl1, hl2⟩ := getLast_length_del hc
  have hxd : X.del = c.del ++ [c.ins.length + 3] := by rw [← hX]; simp [append]
  unfold closeBdd
  rw [M.modify_bind, M.get_bind_apply]
  have hdl : X.del.length = c.nrBdds + 2 := by rw [hxd]; simp; omega
  simp only
  rw [if_neg (by omega)]
  have e4 : dlm (X.del.length - 2) { X with ins := X.ins ++ [topInstr, botInstr] } = .ok c.ins.length { X with ins := X.ins ++ [topInstr, botInstr] } := by
    refine dlm_ok0 (d1 := c.ins.length + 3) ⟨?_, ?_⟩
    · show X.del[_]? = _
      rw [hdl, hxd, show c.nrBdds + 2 - 2 = c.nrBdds by omega, List.getElem?_append_left (by omega)]; exact hl1
    · show X.del[_]? = _
      rw [hdl, hxd, List.getElem?_append_right (by omega), show c.nrBdds + 2 - 2 + 1 - c.del.length = 0 by omega]; rfl
  have e5 : dlm (X.del.length - 1) { X with ins := X.ins ++ [topInstr, botInstr] } = .ok (c.ins.length + 3) { X with ins := X.ins ++ [topInstr, botInstr] } := by
    rw [hdl, show c.nrBdds + 2 - 1 = c.nrBdds + 1 by omega]
    refine dlm_ok1 (d0 := c.ins.length) ⟨?_, ?_⟩
    · show X.del[_]? = _
      rw [hxd, List.getElem?_append_left (by omega)]; exact hl1
    · show X.del[_]? = _
      rw [hxd, List.getElem?_append_right (by omega), show c.nrBdds + 1 - c.del.length = 0 by omega]; rfl
  have hsub : subSz (c.ins.length + 3) 2 = c.ins.length + 1 := by unfold subSz; rw [if_neg (by omega)]; omega
  rw [M.bind_ok e4, M.bind_ok e5, hsub]
  have hlen : ({ X with ins := X.ins ++ [topInstr, botInstr] } : Coll).ins.length - c.ins.length = 4 + 1 := by
    show (X.ins ++ _).length - _ = _
    rw [hxi]; simp
  have e6 : insAt c.ins.length { X with ins := X.ins ++ [topInstr, botInstr] } = .ok (bBlank ⟨v, .zero, .zero⟩) { X with ins := X.ins ++ [topInstr, botInstr] } := by
    refine insAt_ok ?_
    show (X.ins ++ _)[_]? = _
    rw [hxi]; simp
  refine ⟨{ X with ins := X.ins ++ [topInstr, botInstr] }, ?_⟩
  rw [hlen, closeLoop, if_pos (by omega)]
  have e7 : closeArc cfg c.ins.length (bBlank ⟨v, .zero, .zero⟩).lo { X with ins := X.ins ++ [topInstr, botInstr] } = .throw { X with ins := X.ins ++ [topInstr, botInstr] } := by
    unfold closeArc
    rw [M.get_bind_apply, if_pos (show (bBlank ⟨v, .zero, .zero⟩).lo = cUndef from rfl)]; rfl
  have bt : ∀ {α β : Type} {m : M Coll α} {k : α → M Coll β} {s s' : Coll}, m s = .throw s' → (m >>= k) s = .throw s' := by
    intro α β m k s s' h
    show M.bind m k s = _
    unfold M.bind; rw [h]
  exact bt ((M.bind_ok e6).trans (bt e7))

end

/-- The demo collection meets the hypotheses: four entries, 16 instructions. -/
example (nd : Bool) : CReachable (envOf nd) (demoC nd) ∧ 0 < (demoC nd).nrBdds ∧ (demoC nd).ins.length + 2 ≤ 2 ^ 64 - 3 :=
  ⟨demoC_reachable nd, by rw [demoC_nrBdds]; omega, by
    have : (demoC nd).ins.length = 16 := by cases nd <;> decide +kernel
    omega⟩

end LBDD
