import Verif.Props.Store
import Verif.Props.CollAnd
import Verif.Props.CollRest
import Verif.Props.CollOrVar
import Verif.Props.CollCanon
import Verif.Spec.System
/-! C82: a manager and a collection are a store of Boolean functions and a list of Boolean functions. -/
namespace LBDD
section
variable {cfg : Cfg} {u : Use} {a a' : Api} {s s' : Mgr} {c c' : Coll} {es : Entries} {l : List Nat} {S S' : Sys} {T : SStore}

theorem EntryIs.covers {k : Nat} {e : Nat × BoolFn} (h : EntryIs cfg c k e) {x : List Bool} (hx : e.1 ≤ x.length) : CCovers c k x :=
  fun v hv => Nat.lt_of_lt_of_le (h.1 v hv) hx

theorem EntryIs.same {k k' : Nat} {e : Nat × BoolFn} (h : EntryIs cfg c k e) (hw : c.Wf k) (hs : SameEntry c k c' k') : EntryIs cfg c' k' e :=
  ⟨fun v hv => h.1 v ((hs.var v).1 hv), fun x hx => by rw [hs.eval hw (h.covers hx)]; exact h.2 x hx⟩

/-- The function that `evaluate` computes. -/
def evalFn (cfg : Cfg) (c : Coll) (nr : Nat) : BoolFn := fun x => match cEvaluate cfg c nr x with | .ok b _ => b | _ => false

theorem entryIs_evalFn (hC : CReachable cfg c) {nr w : Nat} (hn : nr < c.nrBdds) (hv : ∀ v, c.Var nr v → v < w) : EntryIs cfg c nr (w, evalFn cfg c nr) := by
  refine ⟨hv, fun x hx => ?_⟩
  have hc : CCovers c nr x := fun v h => Nat.lt_of_lt_of_le (hv v h) hx
  show cEvaluate cfg c nr x = .ok (evalFn cfg c nr x) ()
  unfold evalFn
  rcases eval_true_or_false hC hn hc with h | h <;> rw [h]

theorem CLooks.append (h : CLooks cfg c es) (hC : CReachable cfg c) (hn : c'.nrBdds = c.nrBdds + 1) (hs : ∀ k, k < c.nrBdds → SameEntry c k c' k) {e : Nat × BoolFn}
    (he : EntryIs cfg c' c.nrBdds e) : CLooks cfg c' (es ++ [e]) := by
  refine ⟨by rw [hn, h.len]; simp, fun nr e' h1 => ?_⟩
  by_cases hk : nr < es.length
  · rw [List.getElem?_append_left hk] at h1
    have := h.len
    exact (h.entry nr e' h1).same (hC.inv.wf nr (by omega)) (hs nr (by omega))
  · rw [List.getElem?_append_right (by omega)] at h1
    have hl : nr - es.length < 1 := by
      have := (List.getElem?_eq_some_iff.1 h1).1
      simpa using this
    rw [show nr - es.length = 0 by omega] at h1
    cases h1
    rw [show nr = c.nrBdds by have := h.len; omega]
    exact he

/-! ### Conjunction -/

theorem mapM_entries : ∀ {l : List Nat}, (∀ i ∈ l, i < es.length) → ∃ ps, l.mapM (fun i => es[i]?) = some ps ∧ (∀ i ∈ l, ∃ e ∈ ps, es[i]? = some e) ∧ ∀ e ∈ ps, ∃ i ∈ l, es[i]? = some e
  | [], _ => ⟨[], rfl, by simp, by simp⟩
  | i :: l, h => by
    obtain ⟨ps, h1, h2, h3⟩ := mapM_entries (l := l) fun j hj => h j (List.mem_cons_of_mem _ hj)
    have hi := List.getElem?_eq_getElem (h i List.mem_cons_self)
    refine ⟨es[i]'(h i List.mem_cons_self) :: ps, by rw [List.mapM_cons, hi, h1]; rfl, ?_, ?_⟩
    · intro j hj
      rcases List.mem_cons.1 hj with rfl | hj
      · exact ⟨_, List.mem_cons_self, hi⟩
      · obtain ⟨e, h4, h5⟩ := h2 j hj
        exact ⟨e, List.mem_cons_of_mem _ h4, h5⟩
    · intro e he
      rcases List.mem_cons.1 he with rfl | he
      · exact ⟨i, List.mem_cons_self, hi⟩
      · obtain ⟨j, h4, h5⟩ := h3 e he
        exact ⟨j, List.mem_cons_of_mem _ h4, h5⟩

theorem le_widest {ps : Entries} {e : Nat × BoolFn} (h : e ∈ ps) : e.1 ≤ widest ps := (foldl_max_le _ 0).2 _ (List.mem_map.2 ⟨e, h, rfl⟩)

theorem and_means {run : Cfg → Nat → Res Coll (Option Nat)} (h : ∃ K c1 t, Anded c c1 K l t ∧ AndSpec c K c1 run) (hC : CReachable cfg c) (hC' : CReachable cfg c')
    (hL : CLooks cfg c es) (hl : ∀ i ∈ l, i < c.nrBdds) {limit : Nat} {o : Option Nat} (e : run cfg limit = .ok o c') :
    ∃ es', AndStep es es' l o ∧ CLooks cfg c' es' := by
  obtain ⟨K, c1, t, ha, hs⟩ := h
  rw [hs cfg limit] at e
  split at e
  · cases e
  split at e
  · split at e
    · cases e
    cases e
    have hlen := hL.len
    obtain ⟨ps, h1, h2, h3⟩ := mapM_entries (es := es) (l := l) fun i hi => by have := hl i hi; omega
    have hw : ∀ i ∈ l, ∀ x : List Bool, widest ps ≤ x.length → CCovers c i x := by
      intro i hi x hx
      obtain ⟨e, g1, g2⟩ := h2 i hi
      exact (hL.entry i e g2).covers (Nat.le_trans (le_widest g1) hx)
    have hall : ∀ x : List Bool, widest ps ≤ x.length → ((ps.all fun p => p.2 x) = true ↔ ∀ i ∈ l, cEvaluate cfg c i x = .ok true ()) := by
      intro x hx
      rw [List.all_eq_true]
      constructor
      · intro g i hi
        obtain ⟨e, g1, g2⟩ := h2 i hi
        rw [(hL.entry i e g2).2 x (Nat.le_trans (le_widest g1) hx), g e g1]
      · intro g e he
        obtain ⟨i, g1, g2⟩ := h3 e he
        have := g i g1
        rw [(hL.entry i e g2).2 x (Nat.le_trans (le_widest he) hx)] at this
        injection this
    have hv : ∀ v, c'.Var c.nrBdds v → v < widest ps := by
      intro v hv
      obtain ⟨i, g1, g2⟩ := ha.var hv
      obtain ⟨e, g3, g4⟩ := h2 i g1
      exact Nat.lt_of_lt_of_le ((hL.entry i e g4).1 v g2) (le_widest g3)
    have hk : c.nrBdds < c'.nrBdds := by rw [ha.nr]; omega
    refine ⟨es ++ [(widest ps, evalFn cfg c' c.nrBdds)], Or.inr ⟨ps, evalFn cfg c' c.nrBdds, h1, by rw [hlen], rfl, ?_⟩, hL.append hC ha.nr ha.same (entryIs_evalFn hC' hk hv)⟩
    rintro ⟨x0, hx0, h0⟩ x hx
    have hne : t ≠ .bot := by
      rintro rfl
      have := (ha.conj cfg x0 fun i hi => hw i hi x0 hx0).2 ((hall x0 hx0).1 h0)
      cases this
    have hK : K ≠ 2 ∨ t = .top := by
      by_cases h : K = 2
      · exact Or.inr ((ha.small h).1.resolve_left hne)
      · exact Or.inl h
    have ev : evalFn cfg c' c.nrBdds x = t.eval (asg x) := by
      unfold evalFn
      rw [ha.eval hK fun i hi => hw i hi x hx]
    have h4 := (ha.conj cfg x fun i hi => hw i hi x hx).trans (hall x hx).symm
    rw [ev]
    show t.eval (asg x) = ps.all fun p => p.2 x
    cases h5 : t.eval (asg x) <;> cases h6 : ps.all (fun p => p.2 x) <;> simp_all
  · cases e
    exact ⟨es, Or.inl ⟨rfl, rfl⟩, hL⟩

/-! ### Renaming -/

theorem renamed_get {n v : Nat} {m : Nat → Nat} {x : List Bool} (h : v < n) : (renamed n m x)[v]? = some (x.getD (m v) false) := by
  unfold renamed
  simp [h]

theorem rebase_means {nr w W : Nat} {F : BoolFn} {look : Nat → Option Nat} (hC : CReachable cfg c) (hL : CLooks cfg c es) (hn : nr < c.nrBdds) (he : es[nr]? = some (w, F))
    (hW : ∀ v z, look v = some z → z < W) (hv : ∀ v, c.Var nr v → ∃ w, look v = some w ∧ w < cBot) (e : cRebase cfg nr look c = .ok () c') (hs : ∀ k, k < c.nrBdds → k ≠ nr → SameEntry c k c' k) :
    CLooks cfg c' (es.set nr (W, fun x => F (renamed w (fun v => (look v).getD 0) x))) := by
  obtain ⟨c1, e1, h1, h2, h3⟩ := rebase_core hC hn hv
  rw [e1] at e; cases e
  have hlen := hL.len
  refine ⟨by rw [h1, hlen]; simp, fun k p hk => ?_⟩
  by_cases hkn : k = nr
  · subst hkn
    rw [List.getElem?_set_self (by omega)] at hk
    cases hk
    have hV : ∀ v, c'.Var k v → v < W := by
      intro v hv
      obtain ⟨z, _, g⟩ := (h2 v).1 hv
      exact hW z v g
    refine ⟨hV, fun x hx => ?_⟩
    have hx : W ≤ x.length := hx
    have hok := hL.entry k _ he
    obtain ⟨b, b1, b2⟩ := h3 x (renamed w (fun v => (look v).getD 0) x) (fun v h => Nat.lt_of_lt_of_le (hV v h) hx) (by
      intro v z g1 g2
      rw [renamed_get (hok.1 v g1), g2]
      have : z < x.length := Nat.lt_of_lt_of_le (hW v z g2) hx
      simp [List.getD_eq_getElem?_getD, this])
    rw [hok.2 _ (by simp [renamed])] at b2
    injection b2 with b2
    rw [b1, ← b2]
  · rw [List.getElem?_set_ne (by omega)] at hk
    have hk' := (List.getElem?_eq_some_iff.1 hk).1
    exact (hL.entry k p hk).same (hC.inv.wf k (by omega)) (hs k (by omega) hkn)

/-! ### Removal -/

theorem filterMap_get : ∀ {ks : List Nat}, (∀ i ∈ ks, i < es.length) → (ks.filterMap fun i => es[i]?).length = ks.length ∧
    ∀ (k : Nat) (e : Nat × BoolFn), (ks.filterMap fun i => es[i]?)[k]? = some e → ∃ old, ks[k]? = some old ∧ es[old]? = some e
  | [], _ => ⟨rfl, fun k e h => by simp at h⟩
  | i :: ks, h => by
    obtain ⟨h1, h2⟩ := filterMap_get (ks := ks) fun j hj => h j (List.mem_cons_of_mem _ hj)
    have hi := List.getElem?_eq_getElem (h i List.mem_cons_self)
    rw [List.filterMap_cons, hi]
    refine ⟨by simp [h1], ?_⟩
    rintro (_ | k) e he
    · exact ⟨i, rfl, by rw [hi]; exact he⟩
    · obtain ⟨old, g1, g2⟩ := h2 k e he
      exact ⟨old, g1, g2⟩

theorem keptOf_lt {n i : Nat} (h : i ∈ keptOf n 0 l) : i < n := by
  simp only [keptOf, List.mem_filter, List.mem_range'_1] at h
  omega

theorem keptOf_nil (n : Nat) : keptOf n 0 [] = List.range n := by
  simp [keptOf, List.range_eq_range']

theorem filterMap_range : ∀ (es : Entries), ((List.range es.length).filterMap fun i => es[i]?) = es := by
  intro es
  apply List.ext_getElem?
  intro k
  have := filterMap_get (es := es) (ks := List.range es.length) (fun i hi => List.mem_range.1 hi)
  by_cases hk : k < es.length
  · have h1 : k < ((List.range es.length).filterMap fun i => es[i]?).length := by rw [this.1]; simpa using hk
    obtain ⟨old, g1, g2⟩ := this.2 k _ (List.getElem?_eq_getElem h1)
    rw [List.getElem?_range hk] at g1
    cases g1
    rw [g2, List.getElem?_eq_getElem h1]
  · rw [List.getElem?_eq_none (by rw [this.1]; simpa using hk), List.getElem?_eq_none (by omega)]

theorem last_of_sorted : ∀ {l : List Nat} {m : Nat}, l.Pairwise (· < ·) → m ∈ l → (∀ i ∈ l, i ≤ m) → l.getLast? = some m
  | [], m, _, hm, _ => by simp at hm
  | [i], m, _, hm, _ => by simp at hm; subst hm; rfl
  | i :: j :: l, m, hp, hm, hle => by
    rw [List.getLast?_cons_cons]
    have hij := (List.pairwise_cons.1 hp).1 j (by simp)
    refine last_of_sorted (List.pairwise_cons.1 hp).2 ?_ fun k hk => hle k (List.mem_cons_of_mem _ hk)
    rcases List.mem_cons.1 hm with rfl | h
    · have := hle j (by simp); omega
    · exact h

/-! ### Disjunction with literals -/

theorem orVar_var {i : Nat} {pos neg : List Nat} (hC : CReachable cfg c) (hi : i < c.nrBdds) (hs : OrSimple c i pos neg) {r : Nat} (e : bddOrVar cfg i pos neg c = .ok r c')
    {v : Nat} (hv : c'.Var c.nrBdds v) : c.Var i v := by
  have hc := hC.inv
  obtain ⟨d0, d1, he, hw⟩ := hc.wf i hi
  obtain ⟨t, et, a1, a2, a3, a4, a5, a6, e1⟩ := bddOrVar_ok (cfg := cfg) hc he hs
  rw [e1] at e; cases e
  obtain ⟨j, f, ⟨x0, x1, g1, g2, g3, g4⟩, hin, rfl⟩ := hv
  obtain ⟨rfl, rfl⟩ := g1.unique (append_entry hc)
  rw [orIns_length hw] at g3
  have hlen := hw.len
  have two := hw.two
  obtain ⟨f', k1, _⟩ := hw.cases (i := j - c.ins.length + d0) (by omega) (by omega)
  have k2 := orIns_get (pos := pos) (neg := neg) hw (t + (c.ins.length - d0)) (by omega) (by omega) k1
  rw [show j - c.ins.length + d0 + (c.ins.length - d0) = j by omega, g4] at k2
  cases k2
  have hidx : (reroute pos neg (t + (c.ins.length - d0)) (shiftIns (c.ins.length - d0) f')).index = f'.index := by
    unfold reroute shiftIns
    repeat' split
    all_goals rfl
  rw [hidx]
  exact ⟨_, f', ⟨d0, d1, he, by omega, by omega, k1⟩, by unfold Instr.Inner at *; rw [hidx] at hin; exact hin, rfl⟩

/-! ### Calls of the collection -/

theorem COp.run_of_call {op : COp} {r : Option Nat} (e : op.call cfg c = .ok r c') : op.run cfg c = .ok () c' := by
  cases op with
  | and i j limit => exact M.bind_ok e
  | andRange l limit => exact M.bind_ok e
  | rebaseVec nr m => obtain ⟨_, _, e1, e2⟩ := bind_ok_inv e; cases e2; exact e1
  | rebaseMap nr m => obtain ⟨_, _, e1, e2⟩ := bind_ok_inv e; cases e2; exact e1
  | remove l => obtain ⟨_, _, e1, e2⟩ := bind_ok_inv e; cases e2; exact e1
  | orVar i pos neg => obtain ⟨_, _, e1, e2⟩ := bind_ok_inv e; cases e2; exact M.bind_ok e1

theorem coll_step (hC : CReachable cfg c) (hL : CLooks cfg c es) {op : COp} (hl : op.Legal cfg c) {r : Option Nat} (e : op.call cfg c = .ok r c') :
    ∃ es', op.Means es es' r ∧ CLooks cfg c' es' := by
  have hrun := COp.run_of_call e
  have hC' : CReachable cfg c' := .step hC rfl hl hrun
  have hlen := hL.len
  cases op with
  | and i j limit =>
    exact and_means (and2 hC hl.1 hl.2) hC hC' hL (by intro k hk; simp at hk; rcases hk with rfl | rfl <;> first | exact hl.1 | exact hl.2) e
  | andRange l limit =>
    match l, hl, e with
    | [], _, e => rw [show COp.call cfg (.andRange [] limit) c = bddAndRange cfg [] limit c from rfl, (C44_other_lengths (l := []) limit).2.1] at e; cases e
    | [i], _, e =>
      rw [show COp.call cfg (.andRange [i] limit) c = bddAndRange cfg [i] limit c from rfl, (C44_other_lengths (l := []) limit).1] at e
      cases e
      exact ⟨es, Or.inl ⟨i, rfl, rfl, rfl⟩, hL⟩
    | i :: j :: l, hl, e =>
      by_cases h49 : (i :: j :: l).length ≤ 49
      · obtain ⟨es', h1, h2⟩ := and_means (andN hC hl (by simp) h49) hC hC' hL hl e
        exact ⟨es', Or.inr ⟨by simp, h1⟩, h2⟩
      · rw [show COp.call cfg (.andRange (i :: j :: l) limit) c = bddAndRange cfg (i :: j :: l) limit c from rfl, (C44_other_lengths (l := i :: j :: l) limit).2.2 (by omega)] at e
        cases e
  | rebaseVec nr m =>
    obtain ⟨_, _, e1, e2⟩ := bind_ok_inv e
    cases e2
    obtain ⟨⟨w, F⟩, hF⟩ : ∃ p, es[nr]? = some p := ⟨_, List.getElem?_eq_getElem (by have := hl.1; omega)⟩
    refine ⟨_, ⟨rfl, w, F, hF, rfl⟩, ?_⟩
    refine rebase_means (look := fun v => m[v]?) hC hL hl.1 hF ?_ hl.2 e1 fun k hk hne => (C46_rebase_keeps hC (Or.inl ⟨m, rfl⟩) hl hrun hk hne).2.1
    intro v z hz
    have := (foldl_max_le m 0).2 z (List.mem_of_getElem? hz)
    omega
  | rebaseMap nr m =>
    obtain ⟨_, _, e1, e2⟩ := bind_ok_inv e
    cases e2
    obtain ⟨⟨w, F⟩, hF⟩ : ∃ p, es[nr]? = some p := ⟨_, List.getElem?_eq_getElem (by have := hl.1; omega)⟩
    refine ⟨_, ⟨rfl, w, F, hF, rfl⟩, ?_⟩
    refine rebase_means (look := fun v => m.lookup v) hC hL hl.1 hF ?_ hl.2 e1 fun k hk hne => (C46_rebase_keeps hC (Or.inr ⟨m, rfl⟩) hl hrun hk hne).2.1
    intro v z hz
    have := (foldl_max_le (m.map (·.2)) 0).2 z (List.mem_map.2 ⟨(v, z), lookup_mem hz, rfl⟩)
    omega
  | remove l =>
    obtain ⟨_, _, e1, e2⟩ := bind_ok_inv e
    cases e2
    refine ⟨_, ⟨rfl, rfl⟩, ?_⟩
    by_cases hne : l = []
    · subst hne
      rw [C47_remove_nothing] at e1
      cases e1
      rw [keptOf_nil, filterMap_range]
      exact hL
    · by_cases hin : c.nrBdds - 1 ∈ l
      · have hlast := last_of_sorted hl.1 hin fun i hi => by have := hl.2.1 i hi; omega
        obtain ⟨c1, f1, f2, f3⟩ := C47_remove_partial hC hl hlast
        rw [f1] at e1; cases e1
        have hks : ∀ i ∈ keptOf es.length 0 l, i < es.length := fun i hi => keptOf_lt hi
        obtain ⟨g1, g2⟩ := filterMap_get (es := es) hks
        refine ⟨by rw [f2, g1, hlen], fun k p hk => ?_⟩
        obtain ⟨old, k1, k2⟩ := g2 k p hk
        rw [← hlen] at k1
        exact (hL.entry old p k2).same (hC.inv.wf old (keptOf_lt (List.mem_of_getElem? k1))) (f3 k old k1).1
      · rcases C47_remove_other hC hl hne hin with h | h <;> rw [h] at e1 <;> cases e1
  | orVar i pos neg =>
    obtain ⟨r', _, e1, e2⟩ := bind_ok_inv e
    cases e2
    obtain ⟨⟨w, F⟩, hF⟩ : ∃ p, es[i]? = some p := ⟨_, List.getElem?_eq_getElem (by have := hl.1; omega)⟩
    have hok := hL.entry i _ hF
    obtain ⟨c1, f1, f2, f3, f4⟩ := C50_paths (cfg := cfg) hC hl.1 hl.2
    have f5 := f1
    rw [f1] at e1; cases e1
    have hE : EntryIs cfg c' c.nrBdds (w, evalFn cfg c' c.nrBdds) :=
      entryIs_evalFn hC' (by omega) fun v hv => hok.1 v (orVar_var hC hl.1 hl.2 f5 hv)
    refine ⟨es ++ [(w, evalFn cfg c' c.nrBdds)], ⟨w, F, evalFn cfg c' c.nrBdds, hF, by rw [hlen], rfl, fun x hx => ?_⟩, hL.append hC f2 f3 hE⟩
    obtain ⟨b, b1, b2⟩ := f4 x (hok.covers hx)
    have b3 := hE.2 x hx
    rw [b1] at b3
    injection b3 with b3
    rw [hok.2 x hx] at b2
    show (F x = true → evalFn cfg c' c.nrBdds x = true) ∧ _
    rw [show evalFn cfg c' c.nrBdds x = b from b3.symm]
    constructor
    · intro h
      exact b2.2 (Or.inl (by show Res.ok (F x) () = _; rw [h]))
    · intro h
      rcases b2.1 h with h | ⟨v, v1, _, v2⟩ | ⟨v, v1, _, v2⟩
      · injection h with h; exact Or.inl h
      · exact Or.inr (Or.inl ⟨v, v1, v2⟩)
      · exact Or.inr (Or.inr ⟨v, v1, v2⟩)

/-! ### The client -/

theorem Sys.Does.reachable {op : SOp} {r : Option Nat} (hR : Reachable cfg u S.api) (hC : CReachable cfg S.coll) (hl : op.Legal cfg u S) (d : Sys.Does cfg S S' op r) :
    Reachable cfg u S'.api ∧ CReachable cfg S'.coll := by
  cases op with
  | mgr op =>
    obtain ⟨rfl, e, ec⟩ := d
    rw [ec]
    exact ⟨.step hR hl e, hC⟩
  | add i =>
    obtain ⟨p, nr, s', hp, e, rfl, ea⟩ := d
    have h2 := hl p hp
    obtain ⟨c', k, e1, _⟩ := C39_add_bdd hR hC (List.mem_of_getElem? hp) h2
    have e2 := e
    rw [e1] at e
    injection e with _ e
    injection e with e3 e4
    subst e3
    rw [ea]
    exact ⟨hR, .add hC rfl hR (List.mem_of_getElem? hp) h2 e2⟩
  | exportEntry nr =>
    obtain ⟨rfl, e, ec⟩ := d
    have hl : Legal cfg u S.api (.call (.exportBdd S.coll nr) []) := hl
    rw [ec]
    exact ⟨.step hR hl e, hC⟩
  | importEntry nr =>
    obtain ⟨rfl, e, ec⟩ := d
    have hl : Legal cfg u S.api (.call (.importBdd S.coll nr) []) := hl
    rw [ec]
    exact ⟨.step hR hl e, hC⟩
  | coll op =>
    obtain ⟨e, ea⟩ := d
    rw [ea]
    exact ⟨hR, .step hC rfl hl (COp.run_of_call e)⟩

theorem SHistory.reachable {h : List (SOp × Option Nat)} (hh : SHistory cfg u h S) : Reachable cfg u S.api ∧ CReachable cfg S.coll := by
  induction hh with
  | init => exact ⟨.init, .init⟩
  | step _ hl d ih => exact d.reachable ih.1 ih.2 hl

theorem padTo_length (w : Nat) (x : List Bool) : w ≤ (padTo w x).length := by simp [padTo]; omega

/-- Extending the assignment does not change the value. -/
theorem cEvaluate_pad (hC : CReachable cfg c) {nr w : Nat} (hn : nr < c.nrBdds) {x : List Bool} (hx : CCovers c nr x) :
    cEvaluate cfg c nr (padTo w x) = cEvaluate cfg c nr x := by
  have hx' : ∀ v, c.Var nr v → v < x.length := hx
  rw [cEvaluate_take hC hn hx' (x := padTo w x) (by simp [padTo])]
  congr 1
  simp [padTo]

theorem entry_means (hC : CReachable cfg c) {nr w n' : Nat} {F G : BoolFn} (hn : nr < c.nrBdds) (hok : EntryIs cfg c nr (w, F)) (hd : CDenotes cfg c nr G)
    (hv : ∀ v, c.Var nr v → v < n') : SameFn n' G (fun x => F (padTo w x)) := by
  intro x hx
  have hx' : CCovers c nr x := fun v h => Nat.lt_of_lt_of_le (hv v h) hx
  have h1 := hd x hx'
  rw [← cEvaluate_pad (w := w) hC hn hx', hok.2 _ (padTo_length w x)] at h1
  injection h1 with h1
  exact h1.symm

theorem CInv.lt_of_wf {nr : Nat} (hw : c.Wf nr) : nr < c.nrBdds := by
  obtain ⟨_, _, he, _⟩ := hw
  exact he.lt

/-- If every step of the manager is a step of the store, then every step of the client is a step of the specification, with the same result. -/
theorem sys_step {M : Nat → Fn → List BoolFn → Nat → List BoolFn → Prop} {I : Nat → BoolFn → BoolFn → Prop} (hR : Reachable cfg u S.api) (hC : CReachable cfg S.coll)
    (h : SLooks cfg S T)
    (hM : ∀ {op : Op} {a' : Api}, Legal cfg u S.api op → LBDD.step cfg op S.api = .ok () a' → ∃ R, Store.StepBy M T.store R op ∧ Looks cfg a' R)
    (hX : ∀ {n n' nr : Nat} {c : Coll} {Fs Gs : List BoolFn}, M n (.exportBdd c nr) Fs n' Gs → (Fn.exportBdd c nr).Means cfg (u = .ordered) n Fs n' Gs)
    (hI : ∀ {n n' nr : Nat} {c : Coll} {Fs Gs : List BoolFn}, M n (.importBdd c nr) Fs n' Gs → ∃ F, n ≤ n' ∧ (∀ v, c.Var nr v → v < n') ∧
      (n' = n ∨ ∃ v, c.Var nr v ∧ n' = v + 1) ∧ CDenotes cfg c nr F ∧ ∃ G, Gs = [G] ∧ I n' G F)
    (hc : ∀ {n : Nat} {G F F' : BoolFn}, I n G F → SameFn n F F' → I n G F')
    {op : SOp} (hl : op.Legal cfg u S) {r : Option Nat} (d : Sys.Does cfg S S' op r) : ∃ T', SStore.StepBy M I T T' op r ∧ SLooks cfg S' T' := by
  cases op with
  | mgr op =>
    obtain ⟨rfl, e, ec⟩ := d
    obtain ⟨R, h1, h2⟩ := hM hl e
    exact ⟨⟨R, T.entries⟩, ⟨rfl, h1, rfl⟩, h2, by rw [ec]; exact h.coll⟩
  | add i =>
    obtain ⟨p, nr, s', hp, e, rfl, ea⟩ := d
    have h2 := hl p hp
    have hk := fun k hk => (C46_add_keeps hR hC (List.mem_of_getElem? hp) h2 e (k := k) hk).1
    obtain ⟨c', k, e1, f1, f2, f3, _⟩ := C39_add_bdd hR hC (List.mem_of_getElem? hp) h2
    rw [e1] at e
    injection e with e0 e
    injection e with e3 e4
    subst e3 e4 e0
    obtain ⟨w, w1, w2⟩ := h.api.get hp
    cases w with
    | none => exact absurd w2 id
    | some F =>
      have dF : Denotes cfg S.api.mgr p F := w2
      have hE : EntryIs cfg S'.coll S.coll.nrBdds (T.store.n, F) := by
        constructor
        · intro v hv
          have h1 := (f3 v).1 hv
          have hg := hR.good
          obtain ⟨t, ht⟩ := hg.any (List.mem_of_getElem? hp)
          have := hg.mem_lt ht ((occurs_iff ht v).1 h1)
          show v < T.store.n
          rw [← h.api.nvars]; exact this
        · intro x hx
          have hx' : Covers S.api.mgr x := by unfold Covers; rw [h.api.nvars]; exact hx
          rw [f2 x hx']
          exact dF x hx'
      refine ⟨⟨T.store, T.entries ++ [(T.store.n, F)]⟩, ⟨F, w1, by rw [h.coll.len], rfl, rfl⟩, by rw [ea]; exact h.api, ?_⟩
      exact h.coll.append hC f1 hk hE
  | exportEntry nr =>
    obtain ⟨rfl, e, ec⟩ := d
    have hl : Legal cfg u S.api (.call (.exportBdd S.coll nr) []) := hl
    obtain ⟨R, ⟨Fs, Gs, h1, mm, m6⟩, h2⟩ := hM hl e
    obtain ⟨F, m1, m2, m3, G, m4, m5⟩ := hX mm
    have hpre := hl [] rfl
    have hn := CInv.lt_of_wf hpre.1
    obtain ⟨⟨w, F0⟩, hF⟩ : ∃ p, T.entries[nr]? = some p := ⟨_, List.getElem?_eq_getElem (by rw [← h.coll.len]; exact hn)⟩
    subst m4
    refine ⟨⟨R, T.entries⟩, ⟨w, F0, G, hF, rfl, rfl, m2, m6, ?_⟩, h2, by rw [ec]; exact h.coll⟩
    have hv : ∀ v, S.coll.Var nr v → v < R.n := fun v hv => by rw [m2, ← h.api.nvars]; exact hpre.2.1 v hv
    intro x hx
    rw [m5 x hx]
    exact entry_means hC hn (h.coll.entry nr _ hF) m3 hv x hx
  | importEntry nr =>
    obtain ⟨rfl, e, ec⟩ := d
    have hl : Legal cfg u S.api (.call (.importBdd S.coll nr) []) := hl
    obtain ⟨R, ⟨Fs, Gs, h1, mm, m6⟩, h2⟩ := hM hl e
    obtain ⟨F, m2, m2', m2'', m3, G, m4, m5⟩ := hI mm
    have hpre := hl [] rfl
    have hn := CInv.lt_of_wf hpre.1
    obtain ⟨⟨w, F0⟩, hF⟩ : ∃ p, T.entries[nr]? = some p := ⟨_, List.getElem?_eq_getElem (by rw [← h.coll.len]; exact hn)⟩
    subst m4
    have hE := h.coll.entry nr _ hF
    refine ⟨⟨R, T.entries⟩, ⟨w, F0, G, hF, rfl, rfl, m2, ?_, m6, ?_⟩, h2, by rw [ec]; exact h.coll⟩
    · show R.n ≤ _
      rcases m2'' with h | ⟨v, v1, v2⟩
      · omega
      · have : v < w := hE.1 v v1
        omega
    · exact hc m5 (entry_means hC hn hE m3 m2')
  | coll op =>
    obtain ⟨e, ea⟩ := d
    obtain ⟨es', h1, h2⟩ := coll_step hC h.coll hl e
    exact ⟨⟨T.store, es'⟩, ⟨rfl, h1⟩, by rw [ea]; exact h.api, h2⟩

/-- Every step of the client is a step of the specification, with the same result. -/
theorem C82_step_partial (hu : u ≠ .mixed) (hR : Reachable cfg u S.api) (hC : CReachable cfg S.coll) (h : SLooks cfg S T) {op : SOp} (hl : op.Legal cfg u S) {r : Option Nat}
    (d : Sys.Does cfg S S' op r) : ∃ T', SStore.Step cfg (u = .ordered) T T' op r ∧ SLooks cfg S' T' := by
  refine sys_step hR hC h (fun hl e => C81_step_partial hu hR h.api hl e) id ?_ (fun h1 h2 x hx => (h1 x hx).trans (h2 x hx)) hl d
  rintro n n' nr c Fs Gs ⟨F, _, m2, m2', m2'', m3, m4⟩
  exact ⟨F, m2, m2', m2'', m3, m4⟩

theorem slooks_init : SLooks cfg ⟨Api.init cfg, Coll.init⟩ SStore.init :=
  ⟨looks_init, rfl, fun nr e h => by simp [SStore.init] at h⟩

/-- **C82** -/
theorem C82_system_partial (hu : u ≠ .mixed) {h : List (SOp × Option Nat)} (hh : SHistory cfg u h S) : ∃ T, SStore.Runs cfg (u = .ordered) h T ∧ SLooks cfg S T := by
  induction hh with
  | init => exact ⟨_, .init, slooks_init⟩
  | step hh hl d ih =>
    obtain ⟨T, h1, h2⟩ := ih
    obtain ⟨hR, hC⟩ := hh.reachable
    obtain ⟨T', h3, h4⟩ := C82_step_partial hu hR hC h2 hl d
    exact ⟨T', .step h1 h3, h4⟩

/-! ### Concrete histories -/

/-- Execute a step if it is legal. -/
def sysExec (cfg : Cfg) (u : Use) (S : Sys) : SOp → Option (Option Nat × Sys)
  | .mgr op => if legalCheck u S.api op then (match LBDD.step cfg op S.api with | .ok _ a' => some (none, ⟨a', S.coll⟩) | _ => none) else none
  | .add i =>
    match S.api.hs[i]? with
    | some (some p) => if 2 ≤ p then (match addBdd cfg p (S.api.mgr, S.coll) with | .ok nr (s', c') => some (some nr, ⟨{ S.api with mgr := s' }, c'⟩) | _ => none) else none
    | _ => none
  | .importEntry nr =>
    if decide (nr < S.coll.nrBdds) && S.coll.varsB nr 1000 && decide (u ≠ .parity) then
      (match LBDD.step cfg (.call (.importBdd S.coll nr) []) S.api with | .ok _ a' => some (none, ⟨a', S.coll⟩) | _ => none)
    else none
  | .exportEntry _ => none
  | .coll (.and i j limit) =>
    if decide (i < S.coll.nrBdds) && decide (j < S.coll.nrBdds) then (match bddAnd cfg i j limit S.coll with | .ok r c' => some (r, ⟨S.api, c'⟩) | _ => none) else none
  | .coll (.rebaseVec nr m) =>
    if decide (nr < S.coll.nrBdds) && S.coll.allB nr (fun _ e => !e.innerB || (match m[e.index]? with | some w => decide (w < 1000) | none => false)) then
      (match cRebaseVec cfg nr m S.coll with | .ok _ c' => some (none, ⟨S.api, c'⟩) | _ => none)
    else none
  | .coll _ => none

theorem sysExec_sound {op : SOp} {r : Option Nat} (hC : CReachable cfg S.coll) (h : sysExec cfg u S op = some (r, S')) : op.Legal cfg u S ∧ Sys.Does cfg S S' op r := by
  cases op with
  | mgr op =>
    simp only [sysExec] at h
    split at h
    · rename_i hl
      split at h
      · rename_i a' e
        cases h
        exact ⟨legalCheck_sound hl, rfl, e, rfl⟩
      · cases h
    · cases h
  | add i =>
    simp only [sysExec] at h
    split at h
    · rename_i p hp
      split at h
      · rename_i h2
        split at h
        · rename_i nr s' c' e
          cases h
          refine ⟨fun q hq => ?_, p, nr, s', hp, e, rfl, rfl⟩
          rw [hp] at hq; cases hq; exact h2
        · cases h
      · cases h
    · cases h
  | exportEntry nr => cases h
  | importEntry nr =>
    simp only [sysExec] at h
    split at h
    · rename_i hb
      simp only [Bool.and_eq_true, decide_eq_true_eq] at hb
      split at h
      · rename_i a' e
        cases h
        refine ⟨?_, rfl, e, rfl⟩
        intro ps hp
        refine ⟨hC.inv.wf nr hb.1.1, fun v hv => ?_, hb.2⟩
        have := Coll.varsB_sound hb.1.2 hv
        unfold topsinkIndex; omega
      · cases h
    · cases h
  | coll op =>
    cases op with
    | and i j limit =>
      simp only [sysExec] at h
      split at h
      · rename_i hb
        simp only [Bool.and_eq_true, decide_eq_true_eq] at hb
        split at h
        · rename_i r' c' e
          cases h
          exact ⟨hb, e, rfl⟩
        · cases h
      · cases h
    | rebaseVec nr m =>
      simp only [sysExec] at h
      split at h
      · rename_i hb
        simp only [Bool.and_eq_true, decide_eq_true_eq] at hb
        split at h
        · rename_i r' c' e
          cases h
          refine ⟨⟨hb.1, ?_⟩, M.bind_ok e, rfl⟩
          rintro v ⟨j, f, ha, hin, rfl⟩
          have := Coll.allB_sound hb.2 ha
          rw [(Instr.innerB_iff f).2 hin] at this
          simp only [Bool.not_true, Bool.false_or] at this
          split at this
          · rename_i w hw
            refine ⟨w, hw, ?_⟩
            simp at this
            unfold cBot; omega
          · cases this
        · cases h
      · cases h
    | andRange l limit => cases h
    | rebaseMap nr m => cases h
    | remove l => cases h
    | orVar i pos neg => cases h

/-- Execute a list of steps; the history comes with the numbers returned. -/
def sysRun (cfg : Cfg) (u : Use) : List SOp → List (SOp × Option Nat) → Sys → Option (List (SOp × Option Nat) × Sys)
  | [], h, S => some (h, S)
  | op :: ops, h, S => match sysExec cfg u S op with | some (r, S') => sysRun cfg u ops (h ++ [(op, r)]) S' | none => none

theorem sysRun_sound : ∀ {ops : List SOp} {h h' : List (SOp × Option Nat)} {S S' : Sys}, SHistory cfg u h S → sysRun cfg u ops h S = some (h', S') → SHistory cfg u h' S'
  | [], _, _, _, _, hh, e => by cases e; exact hh
  | op :: ops, h, h', S, S', hh, e => by
    unfold sysRun at e
    split at e
    · rename_i r S1 e1
      obtain ⟨g1, g2⟩ := sysExec_sound hh.reachable.2 e1
      exact sysRun_sound (.step hh g1 g2) e
    · cases e

/-- `x0`, `x1`, `x0 ∧ x1`; the last two are added to the collection, their conjunction is computed there, `x1` is renamed to `x3` in the collection, and this entry is
imported into the manager. -/
def sysOps : List SOp := [.mgr (.call (.projection 0) []), .mgr (.call (.projection 1) []), .mgr (.call .and [0, 1]), .add 2, .add 1, .coll (.and 0 1 10),
  .coll (.rebaseVec 1 [0, 3]), .importEntry 1]

def sysRes (nd : Bool) : Option (List (SOp × Option Nat) × Sys) := sysRun (envOf nd) .ordered sysOps [] ⟨Api.init (envOf nd), Coll.init⟩

/-- The expected history: the numbers returned are 0, 1 and 2. -/
def sysHist : List (SOp × Option Nat) := [(.mgr (.call (.projection 0) []), none), (.mgr (.call (.projection 1) []), none), (.mgr (.call .and [0, 1]), none), (.add 2, some 0),
  (.add 1, some 1), (.coll (.and 0 1 10), some 2), (.coll (.rebaseVec 1 [0, 3]), none), (.importEntry 1, none)]

def sysDemo (nd : Bool) : Sys := match sysRes nd with | some (_, S) => S | none => ⟨Api.init (envOf nd), Coll.init⟩


theorem sysRun_ops : ∀ {ops : List SOp} {h h' : List (SOp × Option Nat)} {S S' : Sys}, sysRun cfg u ops h S = some (h', S') → h'.map (·.1) = h.map (·.1) ++ ops
  | [], _, _, _, _, e => by cases e; simp
  | op :: ops, h, h', S, S', e => by
    unfold sysRun at e
    split at e
    · rw [sysRun_ops e]; simp
    · cases e

/-- The numbers returned. -/
def sysNrs (nd : Bool) : Option (List (Option Nat)) := (sysRes nd).map fun r => r.1.map (·.2)

theorem sysNrs_eq (nd : Bool) : sysNrs nd = some [none, none, none, some 0, some 1, some 2, none, none] := by cases nd <;> decide +kernel

theorem zip_of_maps {α β : Type} : ∀ (l : List (α × β)), l = (l.map (·.1)).zip (l.map (·.2))
  | [] => rfl
  | (a, b) :: l => by simp only [List.map_cons, List.zip_cons_cons]; rw [← zip_of_maps l]

theorem sysDemo_history (nd : Bool) : SHistory (envOf nd) .ordered sysHist (sysDemo nd) := by
  have h1 := sysNrs_eq nd
  unfold sysDemo
  cases e : sysRes nd with
  | none => unfold sysNrs at h1; rw [e] at h1; cases h1
  | some r =>
    obtain ⟨h, S⟩ := r
    unfold sysNrs at h1
    rw [e] at h1
    have h2 : h.map (·.2) = [none, none, none, some 0, some 1, some 2, none, none] := by injection h1
    have h3 : h.map (·.1) = sysOps := sysRun_ops e
    have h4 : h = sysHist := by rw [zip_of_maps h, h2, h3]; rfl
    subst h4
    exact sysRun_sound .init e

theorem SStore.Runs.inv {ord : Prop} {h : List (SOp × Option Nat)} {op : SOp} {r : Option Nat} {T' : SStore} (hr : SStore.Runs cfg ord (h ++ [(op, r)]) T') :
    ∃ T, SStore.Runs cfg ord h T ∧ SStore.Step cfg ord T T' op r := by
  generalize e : h ++ [(op, r)] = l at hr
  cases hr with
  | init => simp at e
  | @step h1 op1 r1 T1 _ g1 g2 =>
    obtain ⟨rfl, h⟩ := List.append_inj' e rfl
    cases h
    exact ⟨T1, g1, g2⟩

theorem SStore.Runs.start {ord : Prop} {T : SStore} (hr : SStore.Runs cfg ord [] T) : T = SStore.init := by
  generalize hl : ([] : List (SOp × Option Nat)) = l at hr
  cases hr with
  | init => rfl
  | step _ _ => simp at hl

/-- The hypotheses of C82 hold for the history, and every store to which the specification leads is the expected one. -/
theorem C82_concrete (nd : Bool) : SHistory (envOf nd) .ordered sysHist (sysDemo nd) ∧
    ∀ T, SStore.Runs (envOf nd) (Use.ordered = .ordered) sysHist T →
      ∃ E0 E1 E2 F0 F1 F2 F3, T.entries = [(2, E0), (4, E1), (2, E2)] ∧ T.store.slots = [some F0, some F1, some F2, some F3] ∧
        SameFn 2 E0 (fun x => x.getD 0 false && x.getD 1 false) ∧ SameFn 4 E1 (fun x => x.getD 3 false) ∧ SameFn 2 E2 (fun x => x.getD 0 false && x.getD 1 false) ∧
        SameFn 4 F3 (fun x => x.getD 3 false) := by
  refine ⟨sysDemo_history nd, ?_⟩
  intro T8 h
  obtain ⟨T7, h, i8⟩ := SStore.Runs.inv (h := [(.mgr (.call (.projection 0) []), none), (.mgr (.call (.projection 1) []), none), (.mgr (.call .and [0, 1]), none), (.add 2, some 0),
    (.add 1, some 1), (.coll (.and 0 1 10), some 2), (.coll (.rebaseVec 1 [0, 3]), none)]) (op := .importEntry 1) (r := none) h
  obtain ⟨T6, h, i7⟩ := SStore.Runs.inv (h := [(.mgr (.call (.projection 0) []), none), (.mgr (.call (.projection 1) []), none), (.mgr (.call .and [0, 1]), none), (.add 2, some 0),
    (.add 1, some 1), (.coll (.and 0 1 10), some 2)]) (op := .coll (.rebaseVec 1 [0, 3])) (r := none) h
  obtain ⟨T5, h, i6⟩ := SStore.Runs.inv (h := [(.mgr (.call (.projection 0) []), none), (.mgr (.call (.projection 1) []), none), (.mgr (.call .and [0, 1]), none), (.add 2, some 0),
    (.add 1, some 1)]) (op := .coll (.and 0 1 10)) (r := some 2) h
  obtain ⟨T4, h, i5⟩ := SStore.Runs.inv (h := [(.mgr (.call (.projection 0) []), none), (.mgr (.call (.projection 1) []), none), (.mgr (.call .and [0, 1]), none), (.add 2, some 0)])
    (op := .add 1) (r := some 1) h
  obtain ⟨T3, h, i4⟩ := SStore.Runs.inv (h := [(.mgr (.call (.projection 0) []), none), (.mgr (.call (.projection 1) []), none), (.mgr (.call .and [0, 1]), none)])
    (op := .add 2) (r := some 0) h
  obtain ⟨T2, h, i3⟩ := SStore.Runs.inv (h := [(.mgr (.call (.projection 0) []), none), (.mgr (.call (.projection 1) []), none)]) (op := .mgr (.call .and [0, 1])) (r := none) h
  obtain ⟨T1, h, i2⟩ := SStore.Runs.inv (h := [(.mgr (.call (.projection 0) []), none)]) (op := .mgr (.call (.projection 1) [])) (r := none) h
  obtain ⟨T0, h, i1⟩ := SStore.Runs.inv (h := []) (op := .mgr (.call (.projection 0) [])) (r := none) h
  obtain rfl := h.start
  obtain ⟨_, ⟨Fs1, Gs1, a1, ⟨e1, n1, G1, g1, m1⟩, h1⟩, c1⟩ := i1
  obtain ⟨_, ⟨Fs2, Gs2, a2, ⟨e2, n2, G2, g2, m2⟩, h2⟩, c2⟩ := i2
  obtain ⟨_, ⟨Fs3, Gs3, a3, ⟨F3, H3, e3, n3, G3, g3, m3⟩, h3⟩, c3⟩ := i3
  obtain ⟨F4, p4, _, q4, c4⟩ := i4
  obtain ⟨F5, p5, _, q5, c5⟩ := i5
  obtain ⟨q6, i6⟩ := i6
  obtain ⟨q7, _, w7, F7, p7, c7⟩ := i7
  obtain ⟨w8, F8, G8, p8, _, c8, n8, n8', q8, m8⟩ := i8
  subst g1 g2 g3 e3
  have k1 : T1.store.slots = [some G1] := h1
  have k2 : T2.store.slots = [some G1, some G2] := by rw [h2, k1]; rfl
  have k3 : T3.store.slots = [some G1, some G2, some G3] := by rw [h3, k2]; rfl
  have b1 : T1.store.n = 1 := n1
  have b2 : T2.store.n = 2 := by rw [n2, b1]; rfl
  have b3 : T3.store.n = 2 := n3.trans b2
  have p3 : F3 = G1 ∧ H3 = G2 := by
    simp only [Store.args, k2, List.mapM_cons, List.mapM_nil] at a3
    simp at a3
    exact ⟨a3.1.symm, a3.2.symm⟩
  obtain ⟨rfl, rfl⟩ := p3
  rw [b1] at m1
  rw [b2] at m2
  rw [b3] at m3
  have m3 : SameFn 2 G3 (fun x => x.getD 0 false && x.getD 1 false) := by
    intro x hx
    rw [m3 x hx]
    show (F3 x && H3 x) = _
    rw [m1 x (by omega), m2 x hx]
  rw [k3] at p4
  cases p4
  rw [q4, k3] at p5
  cases p5
  have d3 : T3.entries = [] := c3.trans (c2.trans c1)
  have d4 : T4.entries = [(2, G3)] := by rw [c4, d3, b3]; rfl
  have d5 : T5.entries = [(2, G3), (2, H3)] := by rw [c5, d4, q4, b3]; rfl
  rcases i6 with ⟨h, _⟩ | ⟨ps, G6, p6, _, c6, m6⟩
  · cases h
  rw [d5] at p6
  simp at p6
  subst p6
  have hw : widest [(2, G3), (2, H3)] = 2 := rfl
  rw [hw] at c6 m6
  have m6 : SameFn 2 G6 (fun x => x.getD 0 false && x.getD 1 false) := by
    have hall : ∀ x : List Bool, 2 ≤ x.length → ([(2, G3), (2, H3)] : Entries).all (fun p => p.2 x) = (x.getD 0 false && x.getD 1 false) := by
      intro x hx
      show (G3 x && (H3 x && true)) = _
      rw [m3 x hx, m2 x hx]
      show ((x.getD 0 false && x.getD 1 false) && (x.getD 1 false && true)) = _
      cases x.getD 0 false <;> cases x.getD 1 false <;> rfl
    intro x hx
    rw [m6 ⟨[true, true], by decide, by rw [hall _ (by decide)]; rfl⟩ x hx]
    exact hall x hx
  have d6 : T6.entries = [(2, G3), (2, H3), (2, G6)] := by rw [c6, d5]; rfl
  rw [d6] at p7
  cases p7
  have d7 : T7.entries = [(2, G3), (4, fun x => H3 (renamed 2 (fun v => [0, 3].getD v 0) x)), (2, G6)] := by rw [c7, d6]; rfl
  rw [d7] at p8
  cases p8
  have k7 : T7.store = T3.store := q7.trans (q6.trans (q5.trans q4))
  have mE : ∀ x, H3 (renamed 2 (fun v => [0, 3].getD v 0) x) = x.getD 3 false := by
    intro x
    rw [m2 _ (by simp [renamed])]
    rfl
  refine ⟨G3, _, G6, F3, H3, G3, G8, by rw [c8, d7], by rw [q8, k7, k3]; rfl, m3, fun x _ => mE x, m6, fun x hx => ?_⟩
  rw [k7, b3] at n8'
  rw [m8 x (by omega)]
  show H3 (renamed 2 (fun v => [0, 3].getD v 0) (padTo 4 x)) = _
  rw [mE]
  simp [padTo, show 4 - x.length = 0 by omega]

/-- Histories that do not use the collection. -/
theorem History.sys {ops : List Op} (h : History cfg u ops a) : SHistory cfg u (ops.map fun op => (.mgr op, none)) ⟨a, Coll.init⟩ := by
  induction h with
  | init => exact .init
  | @step ops op a a' _ hl e ih =>
    rw [List.map_append]
    exact .step (S' := ⟨a', Coll.init⟩) ih hl ⟨rfl, e, rfl⟩

theorem SStore.Runs.mgr {ord : Prop} {h : List (SOp × Option Nat)} {T : SStore} (hr : SStore.Runs cfg ord h T) :
    ∀ ops : List Op, h = ops.map (fun op => (.mgr op, none)) → Store.Runs cfg ord ops T.store := by
  induction hr with
  | init =>
    intro ops h
    cases ops with
    | nil => exact .init
    | cons => simp at h
  | @step h op r T T' _ d ih =>
    intro ops e
    rcases List.eq_nil_or_concat ops with rfl | ⟨ops', op', rfl⟩
    · simp at e
    · rw [List.concat_eq_append] at e ⊢
      rw [List.map_append] at e
      obtain ⟨e1, e2⟩ := List.append_inj' e rfl
      cases e2
      exact .step (ih ops' e1) d.2.1

/-- The full C82 is false: after `xor_rec(x0, x1)`, the handle returned by `or_rec(x0, x1)` is not the disjunction. -/
theorem C82_refuted (nd : Bool) : SHistory (envOf nd) .mixed (badOps.map fun op => (.mgr op, none)) ⟨badStore nd, Coll.init⟩ ∧
    ¬ ∃ T, SStore.Runs (envOf nd) (Use.mixed = .ordered) (badOps.map fun op => (.mgr op, none)) T ∧ SLooks (envOf nd) ⟨badStore nd, Coll.init⟩ T := by
  obtain ⟨h1, h2⟩ := C81_refuted nd
  refine ⟨h1.sys, ?_⟩
  rintro ⟨T, h3, h4⟩
  exact h2 ⟨T.store, h3.mgr _ rfl, h4.api⟩

end
end LBDD
