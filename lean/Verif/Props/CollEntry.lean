import Verif.Props.CollNav
import Verif.Props.CollCanon
import Verif.Model.CollEntry
/-!
# Raw instructions and entry handles (C74)
-/
namespace LBDD
section
variable {cfg : Cfg} {c c' : Coll} {nr : Nat}

theorem passUp_ok {ins : List Instr} {d0 d1 : Nat} (hw : WfRange ins d0 d1) {x : List Bool}
    (hx : ∀ i e, d0 ≤ i → i < d1 → ins[i]? = some e → e.Inner → e.index < x.length) : ∀ (n i : Nat), d0 ≤ i → i + n = d1 →
    ∃ vs, passUp x i ((ins.drop i).take n) = some vs ∧ vs.length = n ∧
      ∀ k t, k < n → CRepr ins (i + k) t → vs[k]? = some (t.eval (asg x))
  | 0, i, _, _ => ⟨[], by simp [passUp], rfl, fun k t h => by omega⟩
  | n + 1, i, h0, h1 => by
    obtain ⟨vs, e1, e2, e3⟩ := passUp_ok hw hx n (i + 1) (by omega) (by omega)
    have hl := hw.len
    have hi : i < ins.length := by omega
    have hdrop : (ins.drop i).take (n + 1) = ins[i] :: (ins.drop (i + 1)).take n := by
      rw [List.drop_eq_getElem_cons hi, List.take_succ_cons]
    have he : ins[i]? = some ins[i] := List.getElem?_eq_getElem hi
    generalize hE : ins[i] = e at *
    obtain ⟨t, ht, _⟩ := hw.exists (d1 - i) i (by omega) h0 (by omega)
    have key : ∃ b, passUp x i (e :: (ins.drop (i + 1)).take n) = some (b :: vs) ∧ b = t.eval (asg x) := by
      unfold passUp
      rw [e1]
      simp only
      by_cases hb : e.index = cBot
      · rw [if_pos hb]
        refine ⟨false, rfl, ?_⟩
        rw [ht.unique (.bot he hb)]; rfl
      · rw [if_neg hb]
        by_cases htp : e.index = cTop
        · rw [if_pos htp]
          refine ⟨true, rfl, ?_⟩
          rw [ht.unique (.top he htp)]; rfl
        · rw [if_neg htp]
          have hin : e.Inner := ⟨hb, htp⟩
          have hxe := hx i e h0 (by omega) he hin
          have hnode := hw.node h0 (by omega) he hin
          obtain ⟨tl, th, rfl, hl', hh'⟩ := ht.inv he hin
          rw [List.getElem?_eq_getElem hxe]
          simp only
          have hax : asg x e.index = x[e.index] := by simp [asg, hxe]
          cases hy : x[e.index]
          · simp only [Bool.false_eq_true, if_false]
            have := e3 (e.lo - (i + 1)) tl (by omega) (by rw [show i + 1 + (e.lo - (i + 1)) = e.lo by omega]; exact hl')
            rw [if_neg (by omega), this]
            refine ⟨_, rfl, ?_⟩
            show _ = if asg x e.index then _ else _
            rw [hax, hy]; rfl
          · simp only [if_true]
            have := e3 (e.hi - (i + 1)) th (by omega) (by rw [show i + 1 + (e.hi - (i + 1)) = e.hi by omega]; exact hh')
            rw [if_neg (by omega), this]
            refine ⟨_, rfl, ?_⟩
            show _ = if asg x e.index then _ else _
            rw [hax, hy]; rfl
    obtain ⟨b, k1, k2⟩ := key
    refine ⟨b :: vs, by rw [hdrop]; exact k1, by simp [e2], ?_⟩
    intro k t' hk ht'
    cases k with
    | zero => rw [show i + 0 = i by omega] at ht'; rw [ht'.unique ht, ← k2]; rfl
    | succ k => rw [List.getElem?_cons_succ]; exact e3 k t' (by omega) (by rw [show i + 1 + k = i + (k + 1) by omega]; exact ht')

/-! ## C74 -/

/-- C74: the instructions that `get_bdd_instructions(nr)` gives access to are exactly those of the entry, in order and as many as `nr_bdd_nodes(nr)` says; the arcs are offsets in the
sense of `offset()`; and one pass over them from the last to the first computes the function of the entry. -/
theorem C74_raw (hC : CReachable cfg c) (hn : nr < c.nrBdds) :
    ∃ L d0, rawInstructions nr c = .ok L c ∧ cNrNodes cfg nr c = .ok L.length c ∧ (∀ k e, L[k]? = some e ↔ c.At nr (d0 + k) e) ∧
      (∀ k, k < L.length → rawOffset cfg nr k c = .ok (d0 + k) c) ∧
      (∀ k e, L[k]? = some e → (e.Inner ↔ k + 2 < L.length) ∧
        (e.Inner → d0 + k < e.lo ∧ e.lo < d0 + L.length ∧ d0 + k < e.hi ∧ e.hi < d0 + L.length ∧ e.lo ≠ e.hi)) ∧
      ∀ x, CCovers c nr x → ∃ b vs, passUp x d0 L = some (b :: vs) ∧ cEvaluate cfg c nr x = .ok b () := by
  obtain ⟨d0, d1, he, hw⟩ := hC.inv.wf nr hn
  have two := hw.two
  have hl := hw.len
  have hr : rawInstructions nr c = .ok ((c.ins.drop d0).take (d1 - d0)) c := by
    unfold rawInstructions
    rw [M.bind_ok (dlm_ok0 he), M.bind_ok (dlm_ok1 he), insRange_ok _ _ (by omega)]
  have hlen : ((c.ins.drop d0).take (d1 - d0)).length = d1 - d0 := by rw [List.length_take, List.length_drop]; omega
  have hat : ∀ k e, ((c.ins.drop d0).take (d1 - d0))[k]? = some e ↔ c.At nr (d0 + k) e := seg_at he hl
  refine ⟨_, d0, hr, by rw [hlen]; exact cNrNodes_ok he, hat, ?_, ?_, ?_⟩
  · intro k hk
    rw [hlen] at hk
    unfold rawOffset
    rw [M.bind_ok (dlm_ok0 he), M.bind_ok (insAt_ok (List.getElem?_eq_getElem (by omega))), M.get_bind_apply, M.assert_bind_apply (by simp; omega)]
    rfl
  · intro k e hk
    rw [hlen]
    obtain ⟨a, b, q1, q2, q3, q4⟩ := (hat k e).1 hk
    obtain ⟨rfl, rfl⟩ := he.unique q1
    refine ⟨?_, ?_⟩
    · rw [(hw.inner_iff q2 q3 q4).1]; omega
    · intro hin
      have := hw.node q2 q3 q4 hin
      omega
  · intro x hx
    obtain ⟨vs, p1, p2, p3⟩ := passUp_ok hw (x := x) (fun i e h0 h1 hi hin => hx _ ⟨i, e, ⟨d0, d1, he, h0, h1, hi⟩, hin, rfl⟩) (d1 - d0) d0 (Nat.le_refl _) (by omega)
    obtain ⟨t, ht⟩ := (hC.inv.wf nr hn).tree he
    have h0 := p3 0 t (by omega) ht
    cases vs with
    | nil => simp at p2; omega
    | cons b vs =>
      refine ⟨b, vs, p1, ?_⟩
      rw [cEvaluate_ok he hw ht (hx.mem he hw ht)]
      simp at h0
      rw [h0]; rfl

/-- The name of `get_reverse_bdd_instructions` is wrong: it returns the range of `get_bdd_instructions`, and that is never its own reverse. -/
theorem C74_refuted_reverse (hC : CReachable cfg c) (hn : nr < c.nrBdds) :
    ∃ L, rawInstructions nr c = .ok L c ∧ rawReverse nr c = .ok L c ∧ L ≠ L.reverse := by
  obtain ⟨d0, d1, he, hw⟩ := hC.inv.wf nr hn
  have two := hw.two
  have hl := hw.len
  have hr : rawInstructions nr c = .ok (seg c d0 d1) c := by
    unfold rawInstructions
    rw [M.bind_ok (dlm_ok0 he), M.bind_ok (dlm_ok1 he), insRange_ok _ _ (by omega)]; rfl
  refine ⟨_, hr, hr, ?_⟩
  intro hrev
  have hlen := seg_length (c := c) (d0 := d0) hl
  have h0 : (seg c d0 d1)[0]? = (seg c d0 d1)[d1 - d0 - 1]? := by
    rw [hrev, List.getElem?_reverse (by rw [hlen]; omega), ← hrev, hlen]
    congr 1
  rw [seg_get (by omega), seg_get (by omega)] at h0
  obtain ⟨a, b, ha, hb, _, _, hab⟩ := hw.sinks
  rw [show d0 + (d1 - d0 - 1) = d1 - 1 by omega, hb] at h0
  by_cases hk : d0 + 2 = d1
  · rw [show d0 + 0 = d1 - 2 by omega, ha] at h0
    cases h0
    have := cBot_ne_cTop
    rcases hab with ⟨q1, q2⟩ | ⟨q1, q2⟩
    · exact this (q1.symm.trans q2)
    · exact this (q2.symm.trans q1)
  · obtain ⟨e, h1, h2, _⟩ := hw.inner d0 (Nat.le_refl _) (by omega)
    rw [show d0 + 0 = d0 by omega, h1] at h0
    cases h0
    have hin := Instr.inner_of_lt h2
    rcases hab with ⟨q1, q2⟩ | ⟨q1, q2⟩
    · exact hin.2 q2
    · exact hin.1 q2

/-- C74: the functions of `collection[nr]` are those of the collection applied to `nr`. -/
theorem C74_entry_wrappers (hn : nr < c.nrBdds) :
    entryVariables cfg nr c = cVariables cfg nr c ∧ entryNrNodes cfg nr c = cNrNodes cfg nr c ∧ (∀ v, entryNrNodesVar cfg nr v c = cNrNodesVar cfg nr v c) ∧
      (∀ m, entryRebaseVec cfg nr m c = cRebaseVec cfg nr m c) ∧ ∀ m, entryRebaseMap cfg nr m c = cRebaseMap cfg nr m c := by
  have h := mkEntry_ok (cfg := cfg) hn
  exact ⟨M.bind_ok h, M.bind_ok h, fun _ => M.bind_ok h, fun _ => M.bind_ok h, fun _ => M.bind_ok h⟩

/-- C74: `collection[i] & collection[j]`, for satisfiable conjunctions (in debug builds not constantly true) with fewer than 2^64 nodes: one entry is appended, it is the conjunction,
and it is the entry returned. -/
theorem C74_entry_and (hC : CReachable cfg c) {i j : Nat} (hi : i < c.nrBdds) (hj : j < c.nrBdds) (hsat : Satisfiable cfg c [i, j])
    (href : cfg.ndebug = true ∨ Refutable cfg c [i, j]) :
    ∃ K c', (K < 2 ^ 64 → entryAnd cfg i j c = .ok c.nrBdds c') ∧ c'.nrBdds = c.nrBdds + 1 ∧ IsConj cfg c [i, j] c' c.nrBdds ∧ c'.Size c.nrBdds K := by
  obtain ⟨K, c', h1, h2, h3, h4, _⟩ := C42_and_partial hC hi hj hsat href
  refine ⟨K, c', fun hK => ?_, h2, h3, h4⟩
  have := h1 noLimit (by unfold noLimit; decide)
  rw [if_pos (by unfold noLimit; omega)] at this
  unfold entryAnd
  rw [M.bind_ok (mkEntry_ok hi), M.bind_ok (mkEntry_ok hj), M.bind_ok this]
  show (mkEntry cfg c.nrBdds >>= fun _ => pure c.nrBdds) c' = _
  rw [M.bind_ok (mkEntry_ok (by omega))]
  rfl

/-- C74: `collection[nr][k]` is the node at position `k`; nodes of different entries, and nodes at different positions, differ under `!=`. -/
theorem C74_entry_at (hC : CReachable cfg c) (hn : nr < c.nrBdds) {k : Nat} {L : List Instr} (hr : rawInstructions nr c = .ok L c) (hk : k < L.length) :
    ∃ i, entryAt cfg nr k c = .ok i c ∧ navVar i c = .ok L[k].index c ∧
      ∀ nr' k' i' L', nr' < c.nrBdds → rawInstructions nr' c = .ok L' c → k' < L'.length → entryAt cfg nr' k' c = .ok i' c → (navNe i i' = false ↔ nr = nr' ∧ k = k') := by
  have seg_of : ∀ {nr : Nat} {L : List Instr} {d0 d1 : Nat}, c.Entry nr d0 d1 → WfRange c.ins d0 d1 → rawInstructions nr c = .ok L c → L = seg c d0 d1 := by
    intro nr L d0 d1 he hw hr
    have hl := hw.len
    have two := hw.two
    unfold rawInstructions at hr
    rw [M.bind_ok (dlm_ok0 he), M.bind_ok (dlm_ok1 he), insRange_ok _ _ (by omega)] at hr
    injection hr with hr
    exact hr.symm
  have at_ok : ∀ {nr k d0 d1 : Nat}, nr < c.nrBdds → c.Entry nr d0 d1 → k < d1 - d0 → entryAt cfg nr k c = .ok (d0 + k) c := by
    intro nr k d0 d1 hn he hk
    unfold entryAt
    rw [M.bind_ok (mkEntry_ok hn), M.bind_ok (dlm_ok0 he)]
    unfold mkNode
    rw [M.bind_ok (dlm_ok1 he), M.bind_ok (dlm_ok0 he), M.assert_bind_apply (by simp; omega), M.assert_bind_apply (by simp)]
    rfl
  obtain ⟨d0, d1, he, hw⟩ := hC.inv.wf nr hn
  have hl := hw.len
  have hL := seg_of he hw hr
  have hk' : k < d1 - d0 := by rw [hL, seg_length hl] at hk; exact hk
  refine ⟨d0 + k, at_ok hn he hk', ?_, ?_⟩
  · have h1 : L[k]? = some L[k] := List.getElem?_eq_getElem hk
    have h2 : c.ins[d0 + k]? = some L[k] := by
      have h3 : (seg c d0 d1)[k]? = c.ins[d0 + k]? := seg_get hk'
      rw [← hL] at h3
      rw [← h3]; exact h1
    unfold navVar
    rw [M.bind_ok (insAt_ok h2)]
    rfl
  · intro nr' k' i' L' hn' hr' hk2 he'
    obtain ⟨e0, e1, hen, hw'⟩ := hC.inv.wf nr' hn'
    have hl' := hw'.len
    have hL' := seg_of hen hw' hr'
    have hk3 : k' < e1 - e0 := by rw [hL', seg_length hl'] at hk2; exact hk2
    rw [at_ok hn' hen hk3] at he'
    injection he' with he'
    subst he'
    have : (navNe (d0 + k) (e0 + k') = false) ↔ d0 + k = e0 + k' := by unfold navNe; simp
    rw [this]
    constructor
    · intro h
      by_cases hne : nr = nr'
      · subst hne
        obtain ⟨rfl, rfl⟩ := he.unique hen
        exact ⟨rfl, by omega⟩
      · have := hC.inv.disjoint he hen hne
        omega
    · rintro ⟨rfl, rfl⟩
      obtain ⟨rfl, rfl⟩ := he.unique hen
      rfl

/-- The instructions of (x0∧x1)∨x2, the third entry of the demo collection, read in one pass under x0 = false, x1 = true, x2 = true. -/
theorem C74_example (nd : Bool) : ∃ L, rawInstructions 2 (demoC nd) = .ok L (demoC nd) ∧ L.length = 5 ∧ passUp [false, true, true] 8 L = some [true, true, true, false, true] := by
  have : (match rawInstructions 2 (demoC nd) with | .ok L _ => decide (L.length = 5 ∧ passUp [false, true, true] 8 L = some [true, true, true, false, true]) | _ => false) = true := by
    cases nd <;> decide +kernel
  obtain ⟨L, _, h1, _⟩ := C74_raw (cfg := envOf nd) (demoC_reachable nd) (nr := 2) (by rw [demoC_nrBdds]; omega)
  rw [h1] at this
  exact ⟨L, h1, of_decide_eq_true this⟩

/-- `collection[0] & collection[2]` in the demo collection. -/
theorem C74_and_example (nd : Bool) : ∃ c', entryAnd (envOf nd) 0 2 (demoC nd) = .ok 4 c' ∧ c'.nrBdds = 5 := by
  have : (match entryAnd (envOf nd) 0 2 (demoC nd) with | .ok r c' => decide (r = 4 ∧ c'.nrBdds = 5) | _ => false) = true := by cases nd <;> decide +kernel
  split at this
  · rename_i r c' e
    obtain ⟨rfl, h⟩ := of_decide_eq_true this
    exact ⟨c', e, h⟩
  · cases this

end
end LBDD
