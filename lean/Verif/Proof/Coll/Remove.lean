import Verif.Proof.Coll.Rebase
import Verif.Proof.Query
/-! `bdd_collection::remove`. -/
namespace LBDD

theorem insRange_ok {c : Coll} : ∀ (n i : Nat), i + n ≤ c.ins.length → insRange n i c = .ok ((c.ins.drop i).take n) c
  | 0, i, _ => by simp [insRange]; rfl
  | n + 1, i, h => by
    unfold insRange
    have he : c.ins[i]? = some (c.ins[i]'(by omega)) := List.getElem?_eq_getElem (by omega)
    rw [M.bind_ok (insAt_ok he), M.bind_ok (insRange_ok n (i + 1) (by omega))]
    show Res.ok _ c = _
    congr 1
    rw [List.drop_eq_getElem_cons (by omega : i < c.ins.length), List.take_succ_cons]

theorem dlms_ok {c : Coll} : ∀ (l : List Nat), (∀ i ∈ l, i < c.del.length) → dlms l c = .ok (l.map fun i => c.del.getD i 0) c
  | [], _ => rfl
  | i :: l, h => by
    unfold dlms
    have hi := h i (by simp)
    have : dlm i c = .ok (c.del.getD i 0) c := by
      unfold dlm
      rw [List.getElem?_eq_getElem hi]
      simp [List.getD_eq_getElem?_getD, List.getElem?_eq_getElem hi]
    rw [M.bind_ok this, M.bind_ok (dlms_ok l (fun j hj => h j (by simp [hj])))]
    rfl

theorem range_map_take (l : List Nat) (n : Nat) (h : n ≤ l.length) : (List.range n).map (fun i => l.getD i 0) = l.take n := by
  apply List.ext_getElem?
  intro i
  rw [List.getElem?_map, List.getElem?_take]
  by_cases hi : i < n
  · rw [if_pos hi, List.getElem?_range hi]
    simp [List.getD_eq_getElem?_getD, List.getElem?_eq_getElem (show i < l.length by omega)]
  · rw [if_neg hi, List.getElem?_eq_none (by simpa using hi)]; rfl

/-- Effect of moving one instruction down by `delta`. -/
def mv (delta : Nat) (e : Instr) : Instr := if e.isTerm then e else ⟨e.lo - delta, e.hi - delta, e.index⟩

theorem moveIns_ok {cfg : Cfg} {delta : Nat} {c : Coll} : ∀ (es acc : List Instr),
    (∀ e ∈ es, e.isTerm = false → delta ≤ e.lo ∧ delta ≤ e.hi) → moveIns cfg delta es acc c = .ok (acc ++ es.map (mv delta)) c
  | [], acc, _ => by simp [moveIns]; rfl
  | e :: es, acc, h => by
    unfold moveIns
    cases ht : e.isTerm with
    | true =>
      simp only [if_true]
      rw [moveIns_ok es _ (fun e' he' => h e' (by simp [he']))]
      simp [mv, ht]
    | false =>
      obtain ⟨h1, h2⟩ := h e (by simp) ht
      simp only [Bool.false_eq_true, if_false]
      rw [M.assert_bind_apply (by simpa using h1), M.assert_bind_apply (by simpa using h2), moveIns_ok es _ (fun e' he' => h e' (by simp [he']))]
      simp [mv, ht]

/-- Growing a collection keeps its entries. -/
theorem SameEntry.ext {c c' : Coll} {k : Nat} (hw : c.Wf k) (hd : ∀ (i d : Nat), c.del[i]? = some d → c'.del[i]? = some d)
    (hi : ∀ (i : Nat) (e : Instr), c.ins[i]? = some e → c'.ins[i]? = some e) : SameEntry c k c' k := by
  obtain ⟨d0, d1, he, hw⟩ := hw
  refine .of_eq hw he ⟨hd _ _ he.1, hd _ _ he.2⟩ ?_
  intro i h1 h2
  obtain ⟨e, h3, _⟩ := hw.cases h1 h2
  rw [hi _ _ h3, h3]

/-- The entries `ks` of `c` have been copied to the new vectors, in this order. -/
structure Kept (c : Coll) (ks : List Nat) (nd : List Nat) (ni : List Instr) : Prop where
  first : nd[0]? = some 0
  last : nd.getLast? = some ni.length
  len : nd.length = ks.length + 1
  same : ∀ k old, ks[k]? = some old → SameEntry c old { c with del := nd, ins := ni } k

theorem Kept.push {c : Coll} {ks nd : List Nat} {ni : List Instr} {nr d0 d1 : Nat} (hc : CInv c) (h : Kept c ks nd ni) (hk : ∀ k ∈ ks, k < c.nrBdds)
    (he : c.Entry nr d0 d1) (hle : ni.length ≤ d0) :
    Kept c (ks ++ [nr]) (nd ++ [(ni ++ ((c.ins.drop d0).take (d1 - d0)).map (mv (d0 - ni.length))).length])
      (ni ++ ((c.ins.drop d0).take (d1 - d0)).map (mv (d0 - ni.length))) := by
  have hw := (hc.wf nr he.lt).entry he
  have h2 := hw.two
  have hlen := hw.len
  have hL : (((c.ins.drop d0).take (d1 - d0)).map (mv (d0 - ni.length))).length = d1 - d0 := by simp; omega
  refine ⟨get_append_left h.first, by simp, by simp [h.len], ?_⟩
  intro k old hko
  rcases get_append_cases hko with ⟨h1, h3⟩ | ⟨h1, rfl⟩
  · have hs := h.same k old h3
    refine hs.trans (.ext (hs.wf (hc.wf old (hk old (List.mem_of_getElem? h3)))) ?_ ?_)
    · intro i d hd; exact get_append_left hd
    · intro i e hd; exact get_append_left hd
  · subst h1
    refine ⟨d0, ni.length, d1 - d0, by rw [show d0 + (d1 - d0) = d1 by omega]; exact he, ⟨?_, ?_⟩, ?_⟩
    · show (nd ++ _)[_]? = _
      have hl := h.last
      rw [List.getLast?_eq_getElem?, h.len] at hl
      exact get_append_left hl
    · show (nd ++ _)[_]? = _
      have := h.len
      rw [List.getElem?_append_right (by omega), h.len]
      simp; omega
    · intro i hi
      obtain ⟨e, hie, hcs⟩ := hw.cases (i := d0 + i) (by omega) (by omega)
      refine ⟨e, mv (d0 - ni.length) e, hie, ?_, ?_, ?_, ?_⟩
      · show (ni ++ _)[_]? = _
        rw [List.getElem?_append_right (by omega), List.getElem?_map, List.getElem?_take, if_pos (by omega), List.getElem?_drop]
        rw [show d0 + (ni.length + i - ni.length) = d0 + i by omega, hie]; rfl
      · unfold mv; split <;> rfl
      · intro hin
        have hii := hw.inner_iff (by omega) (by omega) hie
        have : e.isTerm = true := hii.2.2 (by
          rcases Nat.lt_or_ge (d0 + i + 2) d1 with h | h
          · exact absurd (hii.1.2 h) hin
          · exact h)
        simp [mv, this]
      · intro hin
        have hn := hw.node (by omega) (by omega) hie hin
        have : e.isTerm = false := by simp [Instr.isTerm, hn.2.2.1]
        simp only [mv, this, Bool.false_eq_true, if_false]
        omega

theorem keptOf_succ (n nr : Nat) (l : List Nat) : keptOf (n + 1) nr l = (if nr ∈ l then [] else [nr]) ++ keptOf n (nr + 1) l := by
  unfold keptOf
  rw [List.range'_succ, List.filter_cons]
  by_cases h : nr ∈ l <;> simp [h]

theorem keptOf_tail (n nr a : Nat) (l : List Nat) (h : a < nr) : keptOf n nr (a :: l) = keptOf n nr l := by
  unfold keptOf
  apply List.filter_congr
  intro x hx
  have := List.mem_range'_1.1 hx
  have : ¬ x = a := by omega
  simp [this]

theorem moved_bounds {c : Coll} {d0 d1 k : Nat} (hw : WfRange c.ins d0 d1) (hle0 : k ≤ d0) :
    ∀ e ∈ (c.ins.drop d0).take (d1 - d0), e.isTerm = false → d0 - k ≤ e.lo ∧ d0 - k ≤ e.hi := by
  intro e hm ht
  obtain ⟨i, hi⟩ := List.mem_iff_getElem?.1 hm
  rw [List.getElem?_take] at hi
  by_cases hlt : i < d1 - d0
  · rw [if_pos hlt, List.getElem?_drop] at hi
    have hii := hw.inner_iff (i := d0 + i) (by omega) (by omega) hi
    have hin : e.Inner := hii.1.2 (by
      rcases Nat.lt_or_ge (d0 + i + 2) d1 with h | h
      · exact h
      · rw [hii.2.2 h] at ht; cases ht)
    have := hw.node (by omega) (by omega) hi hin
    omega
  · rw [if_neg hlt] at hi; cases hi

theorem removeLoop_ok {cfg : Cfg} {c : Coll} (hc : CInv c) : ∀ (n nr : Nat) (l ks nd : List Nat) (ni : List Instr), nr + n = c.nrBdds →
    l.Pairwise (· < ·) → (∀ i ∈ l, nr ≤ i ∧ i < c.nrBdds) → (n ≠ 0 → l.getLast? = some (c.nrBdds - 1)) →
    Kept c ks nd ni → (∀ k ∈ ks, k < c.nrBdds) → (∀ d, c.del[nr]? = some d → ni.length ≤ d) →
    (cfg.ndebug = true ∨ ∀ k, k < c.nrBdds → k ∉ l → nr ≤ k → c.Big k) →
    ∃ nd' ni', removeLoop cfg n nr l nd ni c = .ok ([], nd', ni') c ∧ Kept c (ks ++ keptOf n nr l) nd' ni'
  | 0, nr, l, ks, nd, ni, hn, _, hl, _, hk, _, _, _ => by
    have : l = [] := by
      cases l with
      | nil => rfl
      | cons a l => have := hl a (by simp); omega
    subst this
    exact ⟨nd, ni, rfl, by simpa [keptOf] using hk⟩
  | n + 1, nr, [], ks, nd, ni, hn, _, hl, hlast, hk, _, _, _ => by
    have := hlast (by omega)
    simp at this
  | n + 1, nr, a :: l, ks, nd, ni, hn, hp, hl, hlast, hk, hks, hle, hbig => by
    have hd : ∀ d d', c.del[nr]? = some d → c.del[nr + 1]? = some d' → d ≤ d' := fun d d' h h' => hc.mono (n := 1) h h'
    obtain ⟨d0, d1, he, hw⟩ := hc.wf nr (by omega)
    have h2 := hw.two
    unfold removeLoop
    simp only
    by_cases ha : nr = a
    · rw [if_pos ha]
      subst ha
      rw [List.pairwise_cons] at hp
      have hl' : ∀ i ∈ l, nr + 1 ≤ i ∧ i < c.nrBdds := by
        intro i hi
        have := hp.1 i hi
        have := (hl i (by simp [hi])).2
        omega
      obtain ⟨nd', ni', h1, h3⟩ := removeLoop_ok (cfg := cfg) hc n (nr + 1) l ks nd ni (by omega) hp.2 hl' (by
          intro hn0
          have := hlast (by omega)
          cases l with
          | nil => simp at this; omega
          | cons b l => simpa using this) hk hks
        (by intro d hd'; have := hle d0 he.1; have := hd d0 d he.1 hd'; omega)
        (by
          rcases hbig with h | h
          · exact Or.inl h
          · refine Or.inr fun k h1 h3 h4 => h k h1 ?_ (by omega)
            simp only [List.mem_cons, not_or]
            exact ⟨by omega, h3⟩)
      refine ⟨nd', ni', h1, ?_⟩
      rw [keptOf_succ, if_pos (by simp), keptOf_tail _ _ _ _ (by omega)]
      simpa using h3
    · rw [if_neg ha]
      have hnl : nr ∉ a :: l := by
        intro h
        rcases List.mem_cons.1 h with h | h
        · exact ha h
        · rw [List.pairwise_cons] at hp
          have := hp.1 nr h
          have := (hl a (by simp)).1
          omega
      rw [M.bind_ok (show dlm nr c = .ok d0 c by unfold dlm; rw [he.1]), M.bind_ok (show dlm (nr + 1) c = .ok d1 c by unfold dlm; rw [he.2])]
      rw [hk.last]
      simp only
      have hle0 := hle d0 he.1
      rw [M.assert_bind_apply (by simpa using hle0)]
      rw [M.bind_ok (insRange_ok (d1 - d0) d0 (by have := hw.len; omega))]
      have hmem := moved_bounds hw hle0
      rw [M.bind_ok (moveIns_ok _ _ hmem)]
      have hkp := hk.push hc hks he hle0
      have hL : (ni ++ ((c.ins.drop d0).take (d1 - d0)).map (mv (d0 - ni.length))).length = ni.length + (d1 - d0) := by
        have := hw.len
        simp; omega
      have hass : (M.assert cfg.ndebug (decide (2 < (ni ++ ((c.ins.drop d0).take (d1 - d0)).map (mv (d0 - ni.length))).length - ni.length)) : M Coll Unit) c = .ok () c := by
        unfold M.assert
        rcases hbig with h | h
        · simp [h]
        · have := h nr (by omega) hnl (Nat.le_refl _) d0 d1 he
          rw [hL]
          have : decide (2 < ni.length + (d1 - d0) - ni.length) = true := by simp; omega
          rw [this]; simp
      rw [M.bind_ok hass]
      obtain ⟨nd', ni', h1, h3⟩ := removeLoop_ok (cfg := cfg) hc n (nr + 1) (a :: l) (ks ++ [nr]) _ _ (by omega) hp (by
          intro i hi
          have := hl i hi
          have : i ≠ nr := fun h => hnl (h ▸ hi)
          omega) (fun _ => hlast (by omega)) hkp (by
          intro k hk'
          rcases List.mem_append.1 hk' with h | h
          · exact hks k h
          · simp at h; omega)
        (by
          intro d hd'
          rw [hL]
          have : d = d1 := by have := he.2; rw [hd'] at this; injection this
          omega)
        (by
          rcases hbig with h | h
          · exact Or.inl h
          · exact Or.inr fun k h1 h3 h4 => h k h1 h3 (by omega))
      refine ⟨nd', ni', h1, ?_⟩
      rw [keptOf_succ, if_neg hnl, ← List.append_assoc]
      exact h3

theorem uniq_id : ∀ (l : List Nat), l.Pairwise (· < ·) → uniq l = l
  | [], _ => rfl
  | [a], _ => rfl
  | a :: b :: l, h => by
    have h' := List.pairwise_cons.1 h
    have : a < b := h'.1 b (by simp)
    unfold uniq
    rw [if_neg (by omega), uniq_id (b :: l) h'.2]

theorem pairwise_length : ∀ (l : List Nat) (a n : Nat), l.Pairwise (· < ·) → (∀ i ∈ l, a ≤ i ∧ i < n) → l.length ≤ n - a
  | [], _, _, _, _ => by simp
  | b :: l, a, n, h, hm => by
    have h' := List.pairwise_cons.1 h
    have := pairwise_length l (b + 1) n h'.2 (fun i hi => by have := h'.1 i hi; have := hm i (by simp [hi]); omega)
    have := hm b (by simp)
    simp only [List.length_cons]; omega

theorem kept_init {c : Coll} (hc : CInv c) {a : Nat} (ha : a < c.nrBdds) {b : Nat} (hb : c.del[a]? = some b) :
    Kept c (List.range a) (c.del.take (a + 1)) (c.ins.take b) := by
  have hl := (getLast_length_del hc).2
  obtain ⟨d0, d1, he, hw⟩ := hc.wf a ha
  have hbl : b ≤ c.ins.length := by
    have : b = d0 := by have := he.1; rw [hb] at this; injection this
    have := hw.len; have := hw.two; omega
  refine ⟨by rw [List.getElem?_take, if_pos (by omega)]; exact hc.first, ?_, by simp; omega, ?_⟩
  · rw [List.getLast?_eq_getElem?, List.length_take, List.getElem?_take, if_pos (by omega)]
    rw [show min (a + 1) c.del.length - 1 = a by omega, hb, List.length_take]
    congr 1; omega
  · intro k old hk
    have hka : k < a := by simpa using lt_of_get hk
    have : old = k := by
      rw [List.getElem?_range hka] at hk; injection hk with hk; exact hk.symm
    subst this
    obtain ⟨e0, e1, he', hw'⟩ := hc.wf old (by omega)
    have hle : e1 ≤ b := hc.mono (n := a - (old + 1)) he'.2 (by rw [show old + 1 + (a - (old + 1)) = a by omega]; exact hb)
    refine .of_eq hw' he' ⟨?_, ?_⟩ ?_
    · show (c.del.take (a + 1))[_]? = _
      rw [List.getElem?_take, if_pos (by omega)]; exact he'.1
    · show (c.del.take (a + 1))[_]? = _
      rw [List.getElem?_take, if_pos (by omega)]; exact he'.2
    · intro i h1 h2
      show (c.ins.take b)[i]? = _
      rw [List.getElem?_take, if_pos (by omega)]

theorem Kept.inv {c : Coll} {ks nd : List Nat} {ni : List Instr} (hc : CInv c) (h : Kept c ks nd ni) (hk : ∀ k ∈ ks, k < c.nrBdds) :
    CInv { c with del := nd, ins := ni } where
  first := h.first
  last := h.last
  wf := by
    intro k hkn
    have hkl : k < ks.length := by
      have : k < nd.length - 1 := hkn
      have := h.len
      omega
    have hg : ks[k]? = some ks[k] := List.getElem?_eq_getElem hkl
    exact (h.same k _ hg).wf (hc.wf _ (hk _ (List.mem_of_getElem? hg)))
  stack := hc.stack
  gen := hc.gen
  red := hc.red
  nrh := hc.nrh

/-- Copies of an entry without duplicates pass `is_bdd`. -/
theorem isBdd_reduced {c : Coll} {nr : Nat} (hw : c.Wf nr) (hr : c.Reduced nr) : c.isBdd nr = true := by
  obtain ⟨d0, d1, he, hw⟩ := hw
  refine isBdd_ok he hw ?_
  intro i j e h1 h2 h3 h4 h5 h6 h7
  exact hr.2 i j e ⟨d0, d1, he, h1, h2, h6⟩ ⟨d0, d1, he, h3, h4, h7⟩ h5

theorem cRemove_ok {cfg : Cfg} {c : Coll} {l : List Nat} (hc : CInv c) (hp : l.Pairwise (· < ·)) (hlast : l.getLast? = some (c.nrBdds - 1))
    (hl : ∀ i ∈ l, i < c.nrBdds) (hdbg : cfg.ndebug = true ∨ ∀ k, k < c.nrBdds → k ∉ l → c.Big k ∧ c.Reduced k) :
    ∃ c', cRemove cfg l c = .ok () c' ∧ CInv c' ∧ c'.nrBdds = (keptOf c.nrBdds 0 l).length ∧
      ∀ k old, (keptOf c.nrBdds 0 l)[k]? = some old → SameEntry c old c' k := by
  cases l with
  | nil => simp at hlast
  | cons a l =>
    have ha := hl a (by simp)
    have hp' := List.pairwise_cons.1 hp
    obtain ⟨q1, q2⟩ := getLast_length_del hc
    obtain ⟨d0, d1, he, hw⟩ := hc.wf a ha
    unfold cRemove
    rw [M.get_bind_apply, M.assert_bind_apply (by
      have := pairwise_length (a :: l) 0 c.nrBdds hp (fun i hi => ⟨by omega, hl i hi⟩)
      simpa using this), M.assert_bind_apply (by
      have : (a :: l).Pairwise (· ≤ ·) := hp.imp (fun h => Nat.le_of_lt h)
      exact decide_eq_true this), M.assert_bind_apply (by
      exact decide_eq_true (uniq_id _ hp))]
    have hds := dlms_ok (c := c) (List.range (a + 1)) (by intro i hi; have := List.mem_range.1 hi; omega)
    rw [range_map_take _ _ (by omega)] at hds
    show ∃ c', (dlms (List.range (a + 1)) >>= _) c = _ ∧ _
    rw [M.bind_ok hds]
    have hnl : (c.del.take (a + 1)).getLast? = some d0 := by
      rw [List.getLast?_eq_getElem?, List.length_take, List.getElem?_take, if_pos (by omega)]
      rw [show min (a + 1) c.del.length - 1 = a by omega]; exact he.1
    rw [hnl]
    simp only
    have hd0l : d0 ≤ c.ins.length := by have := hw.len; have := hw.two; omega
    have hir := insRange_ok (c := c) d0 0 (by omega)
    rw [List.drop_zero] at hir
    rw [M.bind_ok hir]
    obtain ⟨nd', ni', h1, h2⟩ := removeLoop_ok (cfg := cfg) hc (c.nrBdds - a) a (a :: l) (List.range a) _ _ (by omega) hp (by
        intro i hi
        refine ⟨?_, hl i hi⟩
        rcases List.mem_cons.1 hi with rfl | hi
        · exact Nat.le_refl _
        · exact Nat.le_of_lt (hp'.1 i hi)) (fun _ => hlast) (kept_init hc ha he.1) (by intro k hk; have := List.mem_range.1 hk; omega)
      (by
        intro d hd
        have : d = d0 := by have := he.1; rw [hd] at this; injection this
        subst this
        rw [List.length_take]; omega)
      (by
        rcases hdbg with h | h
        · exact Or.inl h
        · exact Or.inr fun k h1 h3 _ => (h k h1 h3).1)
    have hkept : List.range a ++ keptOf (c.nrBdds - a) a (a :: l) = keptOf c.nrBdds 0 (a :: l) := by
      unfold keptOf
      have hsplit : List.range' 0 c.nrBdds = List.range' 0 a ++ List.range' a (c.nrBdds - a) := by
        have := List.range'_append_1 (s := 0) (m := a) (n := c.nrBdds - a)
        rw [Nat.zero_add, show a + (c.nrBdds - a) = c.nrBdds by omega] at this
        exact this.symm
      rw [hsplit, List.filter_append]
      congr 1
      rw [← List.range_eq_range']
      symm
      rw [List.filter_eq_self]
      intro i hi
      have := List.mem_range.1 hi
      have h1 : ¬ i = a := by omega
      have h2 : i ∉ l := fun h => by have := hp'.1 i h; omega
      simp [h1, h2]
    rw [hkept] at h2
    have hks : ∀ k ∈ keptOf c.nrBdds 0 (a :: l), k < c.nrBdds := by
      intro k hk
      have := (List.mem_filter.1 hk).1
      have := List.mem_range'_1.1 this
      omega
    rw [M.bind_ok h1]
    show ∃ c', ((M.assert cfg.ndebug true : M Coll Unit) >>= _) c = _ ∧ _
    rw [M.assert_bind_apply rfl]
    have hinv := h2.inv hc hks
    have hnr : ({ c with del := nd', ins := ni' } : Coll).nrBdds = (keptOf c.nrBdds 0 (a :: l)).length := by
      show nd'.length - 1 = _
      rw [h2.len]; omega
    have hass : (M.assert cfg.ndebug ((List.range ({ c with del := nd', ins := ni' } : Coll).nrBdds).all fun i =>
        ({ c with del := nd', ins := ni' } : Coll).isBdd i) : M Coll Unit) c = .ok () c := by
      unfold M.assert
      rcases hdbg with h | h
      · simp [h]
      · have : ((List.range ({ c with del := nd', ins := ni' } : Coll).nrBdds).all fun i => ({ c with del := nd', ins := ni' } : Coll).isBdd i) = true := by
          rw [List.all_eq_true]
          intro k hk
          have hk := List.mem_range.1 hk
          rw [hnr] at hk
          have hg : (keptOf c.nrBdds 0 (a :: l))[k]? = some (keptOf c.nrBdds 0 (a :: l))[k] := List.getElem?_eq_getElem hk
          have hm := List.mem_of_getElem? hg
          have hs := h2.same k _ hg
          have hkn : (keptOf c.nrBdds 0 (a :: l))[k] ∉ a :: l := by
            have := (List.mem_filter.1 hm).2
            simpa using this
          exact isBdd_reduced (hs.wf (hc.wf _ (hks _ hm))) (hs.reduced (h _ (hks _ hm) hkn).2)
        rw [this]; simp
    rw [M.bind_ok hass]
    exact ⟨_, rfl, hinv, hnr, h2.same⟩

/-- If the last entry is not removed, the loop reads past the end of the range. -/
theorem removeLoop_bad {cfg : Cfg} {c : Coll} (hc : CInv c) : ∀ (n nr : Nat) (l ks nd : List Nat) (ni : List Instr), nr + n = c.nrBdds → n ≠ 0 →
    l.Pairwise (· < ·) → (∀ i ∈ l, nr ≤ i ∧ i + 1 < c.nrBdds) → Kept c ks nd ni → (∀ k ∈ ks, k < c.nrBdds) → (∀ d, c.del[nr]? = some d → ni.length ≤ d) →
    removeLoop cfg n nr l nd ni c = .ub ∨ removeLoop cfg n nr l nd ni c = .assertFail
  | 0, _, _, _, _, _, _, h, _, _, _, _, _ => absurd rfl h
  | n + 1, nr, [], ks, nd, ni, _, _, _, _, _, _, _ => Or.inl rfl
  | n + 1, nr, a :: l, ks, nd, ni, hn, _, hp, hl, hk, hks, hle => by
    have hd : ∀ d d', c.del[nr]? = some d → c.del[nr + 1]? = some d' → d ≤ d' := fun d d' h h' => hc.mono (n := 1) h h'
    obtain ⟨d0, d1, he, hw⟩ := hc.wf nr (by omega)
    have h2 := hw.two
    have hn0 : n ≠ 0 := by have := hl a (by simp); omega
    unfold removeLoop
    simp only
    by_cases ha : nr = a
    · rw [if_pos ha]
      subst ha
      rw [List.pairwise_cons] at hp
      exact removeLoop_bad (cfg := cfg) hc n (nr + 1) l ks nd ni (by omega) hn0 hp.2 (by
        intro i hi
        have := hp.1 i hi
        have := (hl i (by simp [hi])).2
        omega) hk hks (by intro d hd'; have := hle d0 he.1; have := hd d0 d he.1 hd'; omega)
    · rw [if_neg ha]
      have hnl : nr ∉ a :: l := by
        intro h
        rcases List.mem_cons.1 h with h | h
        · exact ha h
        · rw [List.pairwise_cons] at hp
          have := hp.1 nr h
          have := (hl a (by simp)).1
          omega
      rw [M.bind_ok (show dlm nr c = .ok d0 c by unfold dlm; rw [he.1]), M.bind_ok (show dlm (nr + 1) c = .ok d1 c by unfold dlm; rw [he.2])]
      rw [hk.last]
      simp only
      have hle0 := hle d0 he.1
      rw [M.assert_bind_apply (by simpa using hle0)]
      rw [M.bind_ok (insRange_ok (d1 - d0) d0 (by have := hw.len; omega))]
      have hmem := moved_bounds hw hle0
      rw [M.bind_ok (moveIns_ok _ _ hmem)]
      have hkp := hk.push hc hks he hle0
      have hL : (ni ++ ((c.ins.drop d0).take (d1 - d0)).map (mv (d0 - ni.length))).length = ni.length + (d1 - d0) := by
        have := hw.len
        simp; omega
      have ih := removeLoop_bad (cfg := cfg) hc n (nr + 1) (a :: l) (ks ++ [nr]) _ _ (by omega) hn0 hp (by
          intro i hi
          have := hl i hi
          have : i ≠ nr := fun h => hnl (h ▸ hi)
          omega) hkp (by
          intro k hk'
          rcases List.mem_append.1 hk' with h | h
          · exact hks k h
          · simp at h; omega)
        (by
          intro d hd'
          rw [hL]
          have : d = d1 := by have := he.2; rw [hd'] at this; injection this
          omega)
      cases hb : (cfg.ndebug || decide (2 < (ni ++ ((c.ins.drop d0).take (d1 - d0)).map (mv (d0 - ni.length))).length - ni.length)) with
      | true =>
        have hass : (M.assert cfg.ndebug (decide (2 < (ni ++ ((c.ins.drop d0).take (d1 - d0)).map (mv (d0 - ni.length))).length - ni.length)) : M Coll Unit) c = .ok () c := by
          unfold M.assert
          rw [hb]; rfl
        rw [M.bind_ok hass]
        exact ih
      | false =>
        right
        show M.bind _ _ _ = _
        unfold M.bind M.assert
        rw [hb]; rfl

theorem cRemove_bad {cfg : Cfg} {c : Coll} {l : List Nat} (hc : CInv c) (hp : l.Pairwise (· < ·)) (hne : l ≠ [])
    (hl : ∀ i ∈ l, i + 1 < c.nrBdds) : cRemove cfg l c = .ub ∨ cRemove cfg l c = .assertFail := by
  cases l with
  | nil => exact absurd rfl hne
  | cons a l =>
    have ha := hl a (by simp)
    have hp' := List.pairwise_cons.1 hp
    obtain ⟨q1, q2⟩ := getLast_length_del hc
    obtain ⟨d0, d1, he, hw⟩ := hc.wf a (by omega)
    unfold cRemove
    rw [M.get_bind_apply, M.assert_bind_apply (by
      have := pairwise_length (a :: l) 0 c.nrBdds hp (fun i hi => ⟨by omega, by have := hl i hi; omega⟩)
      simpa using this), M.assert_bind_apply (by
      have : (a :: l).Pairwise (· ≤ ·) := hp.imp (fun h => Nat.le_of_lt h)
      exact decide_eq_true this), M.assert_bind_apply (by
      exact decide_eq_true (uniq_id _ hp))]
    have hds := dlms_ok (c := c) (List.range (a + 1)) (by intro i hi; have := List.mem_range.1 hi; omega)
    rw [range_map_take _ _ (by omega)] at hds
    show (dlms (List.range (a + 1)) >>= _) c = _ ∨ (dlms (List.range (a + 1)) >>= _) c = _
    rw [M.bind_ok hds]
    have hnl : (c.del.take (a + 1)).getLast? = some d0 := by
      rw [List.getLast?_eq_getElem?, List.length_take, List.getElem?_take, if_pos (by omega)]
      rw [show min (a + 1) c.del.length - 1 = a by omega]; exact he.1
    rw [hnl]
    simp only
    have hd0l : d0 ≤ c.ins.length := by have := hw.len; have := hw.two; omega
    have hir := insRange_ok (c := c) d0 0 (by omega)
    rw [List.drop_zero] at hir
    rw [M.bind_ok hir]
    have hb := removeLoop_bad (cfg := cfg) hc (c.nrBdds - a) a (a :: l) (List.range a) _ _ (by omega) (by omega) hp (by
        intro i hi
        refine ⟨?_, hl i hi⟩
        rcases List.mem_cons.1 hi with rfl | hi
        · exact Nat.le_refl _
        · exact Nat.le_of_lt (hp'.1 i hi)) (kept_init hc (by omega) he.1) (by intro k hk; have := List.mem_range.1 hk; omega)
      (by
        intro d hd
        have : d = d0 := by have := he.1; rw [hd] at this; injection this
        subst this
        rw [List.length_take]; omega)
    rcases hb with hb | hb
    · left; show M.bind _ _ _ = _; unfold M.bind; rw [hb]
    · right; show M.bind _ _ _ = _; unfold M.bind; rw [hb]

end LBDD
