import Verif.Proof.Coll.Cost
import Verif.Props.CollAnd
import Verif.Props.Cost
import Verif.Props.CollDemo
import Verif.Props.CollRest
import Verif.Props.CollCanon
/-!
# Number of calls of the conjunction of a collection (C77)

`bdd_and_impl` remembers a pair of positions only if it created a node for it. Pairs whose conjunction is constant (or equal to an existing node) are not
remembered, and the `else` branch meant for "second operand is a sink" is never reached (bdd_collection.cpp:65-76).
-/
namespace LBDD
section
variable {cfg : Cfg} {c : Coll} {i j limit : Nat}

/-- C77: the counted conjunctions are the conjunctions. -/
theorem C77_counts (cfg : Cfg) (i j limit : Nat) (l : List Nat) : Counts (bddAndK cfg i j limit) (bddAnd cfg i j limit) ∧
    Counts (bddAndNK cfg l limit) (bddAndN cfg l limit) := ⟨bddAndK_counts cfg i j limit, bddAndNK_counts cfg l limit⟩

theorem entry_wf {d0 d1 : Nat} (hC : CReachable cfg c) (h : c.Entry i d0 d1) : InWf c.ins d0 ∧ ∃ t, CRepr c.ins d0 t := by
  have hw := (hC.inv.wf i h.lt).entry h
  have h' : InWf c.ins d0 := ⟨d0, d1, hw, Nat.le_refl _, by have := hw.two; omega⟩
  exact ⟨h', h'.repr⟩

theorem msr_fuel (c : Coll) (f g : Nat) : msr c.ins [f, g] < andFuel c [f, g] := by
  have := msr_le c.ins [f, g]
  unfold andFuel; omega

/-- Every assignment is an input that gives every entry the value of its function. -/
theorem entry_fun (hC : CReachable cfg c) (x : Assign) (B : Nat) : ∃ l : List Bool, (∀ v, v < B → l.getD v false = x v) ∧ (∀ nr, CCovers c nr l) ∧
    ∀ {k d0 d1 : Nat} {t : Tree}, c.Entry k d0 d1 → CRepr c.ins d0 t → cEvaluate cfg c k l = .ok (t.eval x) () := by
  obtain ⟨N, hN⟩ := cover_all c
  have hxl : ∀ nr, CCovers c nr (toList (N + B) x) := fun nr => hN _ nr (by rw [toList_length]; omega)
  refine ⟨_, fun v hv => asg_toList (by omega), hxl, fun {k d0 d1 t} he ht => ?_⟩
  have hw := (hC.inv.wf k he.lt).entry he
  have hm := (hxl k).mem he hw ht
  have h := cEvaluate_ok (cfg := cfg) he hw ht hm
  rw [toList_length] at hm
  have h' : t.eval (asg (toList (N + B) x)) = t.eval x := Tree.eval_congr fun w hw => asg_toList (hm w hw)
  exact h.trans (congrArg (Res.ok · ()) h')

/-- C77, entries without a common solution: `bdd_and(i, j)` descends both BDDs along every pair of paths; no pair of positions is ever looked up
successfully, however often it is met. -/
theorem C77_unsat (hC : CReachable cfg c) {f g f1 g1 : Nat} (hi : c.Entry i f f1) (hj : c.Entry j g g1) (oi : c.Ordered i) (oj : c.Ordered j)
    (hu : ¬ Satisfiable cfg c [i, j]) (hl : cfg.ndebug = true ∨ 2 < limit) : PairUnfolded c.ins f g ((bddAndK cfg i j limit).calls c) := by
  obtain ⟨wf, tf, rf⟩ := entry_wf hC hi
  obtain ⟨wg, tg, rg⟩ := entry_wf hC hj
  have hwi := hC.inv.wf i hi.lt
  have hwj := hC.inv.wf j hj.lt
  rw [bddAndK_calls hC.inv hi hj hl]
  have hd : Dead tf tg := by
    refine Or.inr ⟨hwi.tree_ordered hi oi rf (Nat.le_refl _) (by have := (hwi.entry hi).two; omega),
      hwj.tree_ordered hj oj rg (Nat.le_refl _) (by have := (hwj.entry hj).two; omega), fun x => ?_⟩
    cases hx : conj [tf, tg] x with
    | false => rfl
    | true =>
      exfalso
      obtain ⟨l, _, h1, h2⟩ := entry_fun (cfg := cfg) hC x 0
      simp only [conj, List.all_cons, List.all_nil, Bool.and_true, Bool.and_eq_true] at hx
      refine hu ⟨l, fun k _ => h1 k, fun k hk => ?_⟩
      simp only [List.mem_cons, List.not_mem_nil, or_false] at hk
      rcases hk with rfl | rfl
      · rw [h2 hi rf, hx.1]
      · rw [h2 hj rg, hx.2]
  exact (andImpl2_dead (c := startC c) hC.inv.gen _ f g tf tg wf wg rf rg hd (msr_fuel c f g)).2

/-- C77, sequences of entries without a common solution: the descent of all of them is unfolded in the same way. -/
theorem C77_range_unsat (hC : CReachable cfg c) {l ds : List Nat} (hl : ∀ i ∈ l, i < c.nrBdds) (hd : l.map (c.del[·]?) = ds.map some) (ho : ∀ i ∈ l, c.Ordered i)
    (hu : ¬ Satisfiable cfg c l) (hlim : cfg.ndebug = true ∨ 2 < limit) : KeyUnfolded c.ins ds ((bddAndNK cfg l limit).calls c) := by
  obtain ⟨ds', ts, h1, h2, h3⟩ := hC.inv.operands hl
  obtain rfl : ds' = ds := by
    have key : ∀ (l ds' ds : List Nat), dlms l c = .ok ds' c → l.map (c.del[·]?) = ds.map some → ds' = ds := by
      intro l
      induction l with
      | nil =>
        intro ds' ds h1 hd
        cases h1
        cases ds with
        | nil => rfl
        | cons => cases hd
      | cons i l ih =>
        intro ds' ds h1 hd
        unfold dlms at h1
        obtain ⟨d, c1, e1, h⟩ := bind_ok_inv h1
        obtain ⟨ds2, c2, e2, h⟩ := bind_ok_inv h
        cases h
        cases ds with
        | nil => cases hd
        | cons d' ds =>
          injection hd with hd1 hd2
          have hd : d = d' ∧ c1 = c := by
            unfold dlm at e1
            rw [show c.del[i]? = some d' from hd1] at e1
            cases e1; exact ⟨rfl, rfl⟩
          obtain ⟨rfl, rfl⟩ := hd
          rw [ih _ _ e2 hd2]
    exact key l ds' ds h1 hd
  rw [bddAndNK_calls hC.inv hl h1 hlim]
  obtain ⟨q1, q2, _⟩ := Operands.conj hC.inv ⟨h1, h2, h3⟩ hl
  have hf : ∀ x, conj ts x = false := by
    intro x
    cases hx : conj ts x with
    | false => rfl
    | true =>
      exfalso
      obtain ⟨N, hN⟩ := cover_all c
      have hcov : ∀ i ∈ l, CCovers c i (toList N x) := fun i _ => hN _ i (by rw [toList_length]; omega)
      obtain ⟨a1, a2⟩ := q1 cfg (toList N x) hcov
      have : conj ts (asg (toList N x)) = true := by
        rw [← hx]
        exact all_congr_mem fun t ht => Tree.eval_congr fun w hw => asg_toList (by have := a2 t ht w hw; rwa [toList_length] at this)
      exact hu ⟨_, hcov, a1.1 this⟩
  exact (andImplN_dead (c := startC c) hC.inv.gen _ ds' ts h2 h3 (q2 ho) hf (by have := msr_le c.ins ds'; unfold andFuel; exact Nat.lt_succ_of_le this)).2

/-- C77, an entry and its negation: the number of calls is the number of nodes of the first, unfolded into a tree. -/
theorem C77_contradiction (hC : CReachable cfg c) {f f1 : Nat} (hi : c.Entry i f f1) (hj : j < c.nrBdds) (oi : c.Ordered i) (oj : c.Ordered j)
    (ri : c.Reduced i) (rj : c.Reduced j) (hn : ∀ x b, CCovers c i x → CCovers c j x → cEvaluate cfg c i x = .ok b () → cEvaluate cfg c j x = .ok (!b) ())
    (hl : cfg.ndebug = true ∨ 2 < limit) : CUnfolded c.ins f ((bddAndK cfg i j limit).calls c) := by
  have hwj := hC.inv.wf j hj
  obtain ⟨g, g1, hj, _⟩ := hC.inv.wf j hj
  obtain ⟨_, tf, rf⟩ := entry_wf hC hi
  obtain ⟨_, tg, rg⟩ := entry_wf hC hj
  have hwi := hC.inv.wf i hi.lt
  have hu : ¬ Satisfiable cfg c [i, j] := by
    rintro ⟨x, h1, h2⟩
    have := hn x true (h1 i (by simp)) (h1 j (by simp)) (h2 i (by simp))
    rw [h2 j (by simp)] at this
    cases this
  have hp := C77_unsat hC hi hj oi oj hu hl
  have htwo := (hwi.entry hi).two
  have htwo' := (hwj.entry hj).two
  have hneg : tg = negTree tf := Tree.eq_of_eval (hwj.tree_ordered hj oj rg (Nat.le_refl _) (by omega))
    (negTree_ordered (hwi.tree_ordered hi oi rf (Nat.le_refl _) (by omega))) (tree_reduced hwj rj hj rg (Nat.le_refl _) (by omega))
    (negTree_reduced (tree_reduced hwi ri hi rf (Nat.le_refl _) (by omega))) fun x => by
      obtain ⟨l, _, h1, h2⟩ := entry_fun (cfg := cfg) hC x 0
      have h := hn l _ (h1 i) (h1 j) (h2 hi rf)
      rw [h2 hj rg] at h
      injection h with h
      rw [h, negTree_eval]
  rw [hp.with_neg rf (hneg ▸ rg)]
  exact .of_repr rf

/-- C77, also for conjunctions that are not `false`: if the smallest variable is that of the root of the second operand, whose low child is the false
sink, then already the first of the two recursive calls unfolds the whole first operand. -/
theorem C77_first (hC : CReachable cfg c) {f g f1 g1 k : Nat} {ef eg eb : Instr} (hi : c.Entry i f f1) (hj : c.Entry j g g1) (hf : c.ins[f]? = some ef)
    (hg : c.ins[g]? = some eg) (hgi : eg.Inner) (hlo : c.ins[eg.lo]? = some eb) (hb : eb.index = cBot) (hlt : eg.index < ef.index) (hfb : ef.index ≠ cBot)
    (hk : CUnfolded c.ins f k) (hl : cfg.ndebug = true ∨ 2 < limit) : k < (bddAndK cfg i j limit).calls c := by
  obtain ⟨wf, tf, rf⟩ := entry_wf hC hi
  obtain ⟨wg, tg, rg⟩ := entry_wf hC hj
  rw [bddAndK_calls hC.inv hi hj hl, hk.unique (.of_repr rf)]
  exact andImpl2K_first (c := startC c) hC.inv.gen wf wg hf hg rf hlt hgi hfb (.bot hlo hb) (msr_fuel c f g)

theorem CReach.sub {ins : List Instr} {i k : Nat} (h : CReach ins i k) : ∀ {t : Tree} {e : Instr}, CRepr ins i t → ins[k]? = some e → e.Inner →
    ∃ u, CRepr ins k u ∧ t.Sub u := by
  induction h with
  | refl i =>
    intro t e h1 h2 h3
    obtain ⟨tl, th, rfl, _⟩ := h1.inv h2 h3
    exact ⟨_, h1, Or.inl rfl⟩
  | lo g1 g2 _ ih =>
    intro t e h1 h2 h3
    obtain ⟨tl, th, rfl, a, b⟩ := h1.inv g1 g2
    obtain ⟨u, q1, q2⟩ := ih a h2 h3
    exact ⟨u, q1, Or.inr (Or.inl q2)⟩
  | hi g1 g2 _ ih =>
    intro t e h1 h2 h3
    obtain ⟨tl, th, rfl, a, b⟩ := h1.inv g1 g2
    obtain ⟨u, q1, q2⟩ := ih b h2 h3
    exact ⟨u, q1, Or.inr (Or.inr q2)⟩

/-- C77: the unfolded parity of `n ≥ 1` variables has `2^(n+1) - 1` nodes, although the entry has at most `2n + 1` instructions (if every instruction is
reachable, as after `add_bdd` and `bdd_and`). -/
theorem C77_parity (hC : CReachable cfg c) {f f1 k v : Nat} {vs : List Nat} (hi : c.Entry i f f1) (oi : c.Ordered i) (ri : c.Reduced i)
    (hn : (v :: vs).Nodup) (hp : ∀ x, CCovers c i x → cEvaluate cfg c i x = .ok (parity (v :: vs) x) ()) (hk : CUnfolded c.ins f k) :
    k + 1 = 2 ^ (vs.length + 2) ∧ (c.Connected i → f1 - f ≤ 2 * vs.length + 3) := by
  obtain ⟨_, t, rt⟩ := entry_wf hC hi
  have hw := hC.inv.wf i hi.lt
  have two := (hw.entry hi).two
  have ho := hw.tree_ordered hi oi rt (Nat.le_refl _) (by omega)
  have hr := tree_reduced hw ri hi rt (Nat.le_refl _) (by omega)
  obtain ⟨B, hB⟩ : ∃ B, ∀ w ∈ v :: vs, w < B := by
    generalize v :: vs = l
    induction l with
    | nil => exact ⟨0, by simp⟩
    | cons a l ih =>
      obtain ⟨B, hB⟩ := ih
      refine ⟨a + B + 1, fun w hw => ?_⟩
      rcases List.mem_cons.1 hw with rfl | h
      · omega
      · have := hB w h; omega
  have he : ∀ x, t.eval x = (false ^^ parityF (v :: vs) x) := by
    intro x
    obtain ⟨l, h0, h1, h2⟩ := entry_fun (cfg := cfg) hC x B
    have h := (h2 hi rt).symm.trans (hp l (h1 i))
    injection h with h
    rw [h, parity_eq, Bool.false_xor]
    exact parityF_congr fun w hw => h0 w (hB w hw)
  refine ⟨?_, fun hcon => ?_⟩
  · have hs := parity_size _ t false (v :: vs) rfl ho hr hn he
    have : 2 ^ (vs.length + 2) = 2 * 2 ^ (v :: vs).length := by rw [List.length_cons, Nat.pow_succ, Nat.mul_comm]
    rw [hk.unique (.of_repr rt)]
    omega
  · obtain ⟨m, hm, hsub⟩ := parity_subs1 ho hr hn he
    have hle : ((List.range (f1 - f - 2)).map (f + ·)).length ≤ m.length := by
      refine pigeon (CRepr c.ins) ?_ ?_ ?_
      · refine List.Pairwise.map _ (fun a b hab h => hab (by omega)) List.nodup_range
      · intro q hq
        simp only [List.mem_map, List.mem_range] at hq
        obtain ⟨d, hd, rfl⟩ := hq
        obtain ⟨e, he', hin⟩ : ∃ e, c.ins[f + d]? = some e ∧ e.Inner := by
          have h := (hw.entry hi).inner (i := f + d) (by omega) (by omega)
          obtain ⟨e, h1, h2, _⟩ := h
          exact ⟨e, h1, Instr.inner_of_lt h2⟩
        obtain ⟨u, q1, q2⟩ := (hcon f _ _ hi.1 ⟨f, f1, hi, by omega, by omega, he'⟩ hin).sub rt he' hin
        exact ⟨u, hsub u q2, q1⟩
      · intro q q' u hq hq' h h'
        simp only [List.mem_map, List.mem_range] at hq hq'
        obtain ⟨d, hd, rfl⟩ := hq
        obtain ⟨d', hd', rfl⟩ := hq'
        exact tree_inj hw ri hi (by omega) (by omega) (by omega) (by omega) h h'
    simp only [List.length_map, List.length_range] at hle
    omega

/-- C77: the conjunction of the parity of `n ≥ 1` variables with its negation makes `2^(n+1) - 1` calls. -/
theorem C77_parity_contradiction (hC : CReachable cfg c) {v : Nat} {vs : List Nat} (hi : i < c.nrBdds) (hj : j < c.nrBdds) (oi : c.Ordered i) (oj : c.Ordered j)
    (ri : c.Reduced i) (rj : c.Reduced j) (hn : (v :: vs).Nodup) (hp : ∀ x, CCovers c i x → cEvaluate cfg c i x = .ok (parity (v :: vs) x) ())
    (hq : ∀ x, CCovers c j x → cEvaluate cfg c j x = .ok (!parity (v :: vs) x) ()) (hl : cfg.ndebug = true ∨ 2 < limit) :
    (bddAndK cfg i j limit).calls c + 1 = 2 ^ (vs.length + 2) := by
  obtain ⟨f, f1, hi, _⟩ := hC.inv.wf i hi
  refine (C77_parity hC hi oi ri hn hp (C77_contradiction hC hi hj oi oj ri rj ?_ hl)).1
  intro x b h1 h2 h3
  rw [hp x h1] at h3
  injection h3 with h3
  rw [← h3]
  exact hq x h2

end

/-! ## Concrete cases -/

theorem parity3_held : ∀ p ∈ [6, 7, 2, 11], parity3.Holds p ∧ 2 ≤ p := by
  intro p hp
  have : ∀ q ∈ [6, 7, 2, 11], some q ∈ parity3.hs ∧ 2 ≤ q := by decide +kernel
  exact this p hp
/-- Entries: the parity of two variables, its negation, `x0`, the parity of three variables. -/
def parityC : Coll := addAll (envOf false) parity3.mgr [6, 7, 2, 11] Coll.init
theorem parityC_reachable : CReachable (envOf false) parityC := addAll_reachable parity3_reachable _ _ .init parity3_held
theorem parityC_nrBdds : parityC.nrBdds = 4 := by decide +kernel
theorem parityC_del : parityC.del = [0, 5, 10, 13, 20] := by decide +kernel
theorem parityC_ordered (k : Nat) (h : k < 4) : parityC.Ordered k := by
  have : k = 0 ∨ k = 1 ∨ k = 2 ∨ k = 3 := by omega
  refine Coll.orderedB_sound ?_
  rcases this with rfl | rfl | rfl | rfl <;> decide +kernel
theorem parityC_reduced (k : Nat) (h : k < 4) : parityC.Reduced k := by
  have : k = 0 ∨ k = 1 ∨ k = 2 ∨ k = 3 := by omega
  refine Coll.reducedB_sound ?_
  rcases this with rfl | rfl | rfl | rfl <;> decide +kernel
theorem parityC_eval (x : List Bool) : (CCovers parityC 0 x → cEvaluate (envOf false) parityC 0 x = .ok (parity [0, 1] x) ()) ∧
    (CCovers parityC 1 x → cEvaluate (envOf false) parityC 1 x = .ok (!parity [0, 1] x) ()) := by
  have hv : ∀ nr, nr < 2 → ∀ v, parityC.Var nr v → v < 2 := by
    intro nr h v hv
    have : nr = 0 ∨ nr = 1 := by omega
    exact Coll.varsB_sound (n := 2) (by rcases this with rfl | rfl <;> decide +kernel) hv
  have h1 : ∀ nr, nr < 2 → parityC.Var nr 1 := by
    intro nr h
    have : nr = 0 ∨ nr = 1 := by omega
    have h5 : parityC.ins[1]? = some ⟨4, 3, 1⟩ ∧ parityC.ins[6]? = some ⟨8, 9, 1⟩ := by decide +kernel
    rcases this with rfl | rfl
    · exact ⟨1, _, ⟨0, 5, by rw [Coll.Entry, parityC_del]; exact ⟨rfl, rfl⟩, by omega, by omega, h5.1⟩, ⟨by decide, by decide⟩, rfl⟩
    · exact ⟨6, _, ⟨5, 10, by rw [Coll.Entry, parityC_del]; exact ⟨rfl, rfl⟩, by omega, by omega, h5.2⟩, ⟨by decide, by decide⟩, rfl⟩
  have key : ∀ nr, nr < 2 → CCovers parityC nr x → ∃ b0 b1 l, x = b0 :: b1 :: l := by
    intro nr h hx
    have := hx 1 (h1 nr h)
    match x, this with
    | b0 :: b1 :: l, _ => exact ⟨b0, b1, l, rfl⟩
  have ev : ∀ b0 b1 : Bool, cevB (cEvaluate (envOf false) parityC 0 [b0, b1]) (parity [0, 1] [b0, b1]) = true ∧
      cevB (cEvaluate (envOf false) parityC 1 [b0, b1]) (!parity [0, 1] [b0, b1]) = true := by
    intro b0 b1
    cases b0 <;> cases b1 <;> decide +kernel
  refine ⟨fun hx => ?_, fun hx => ?_⟩
  · obtain ⟨b0, b1, l, rfl⟩ := key 0 (by omega) hx
    rw [cEvaluate_take parityC_reachable (n := 2) (by rw [parityC_nrBdds]; omega) (hv 0 (by omega)) (by simp)]
    exact cevB_sound (ev b0 b1).1
  · obtain ⟨b0, b1, l, rfl⟩ := key 1 (by omega) hx
    rw [cEvaluate_take parityC_reachable (n := 2) (by rw [parityC_nrBdds]; omega) (hv 1 (by omega)) (by simp)]
    exact cevB_sound (ev b0 b1).2

/-- The hypotheses of `C77_parity_contradiction` (and with it of `C77_unsat`, `C77_contradiction` and `C77_parity`) are met. -/
theorem C77_concrete : (bddAndK (envOf false) 0 1 10).calls parityC = 7 := by
  have := C77_parity_contradiction (limit := 10) parityC_reachable (i := 0) (j := 1) (v := 0) (vs := [1]) (by rw [parityC_nrBdds]; omega)
    (by rw [parityC_nrBdds]; omega) (parityC_ordered 0 (by omega)) (parityC_ordered 1 (by omega)) (parityC_reduced 0 (by omega)) (parityC_reduced 1 (by omega))
    (by decide) (fun x hx => (parityC_eval x).1 hx) (fun x hx => (parityC_eval x).2 hx) (Or.inr (by omega))
  simp at this
  omega

/-- The hypotheses of `C77_range_unsat` are met: `x0`, the parity of two variables and its negation. -/
theorem C77_range_concrete : KeyUnfolded parityC.ins [10, 0, 5] ((bddAndNK (envOf false) [2, 0, 1] 10).calls parityC) ∧
    (bddAndNK (envOf false) [2, 0, 1] 10).calls parityC = 5 := by
  refine ⟨C77_range_unsat parityC_reachable (by rw [parityC_nrBdds]; simp) (by rw [parityC_del]; rfl) ?_ ?_ (Or.inr (by omega)), by decide +kernel⟩
  · intro i hi
    exact parityC_ordered i (by simp at hi; omega)
  · rintro ⟨x, h1, h2⟩
    have a := (parityC_eval x).1 (h1 0 (by simp))
    have b := (parityC_eval x).2 (h1 1 (by simp))
    rw [h2 0 (by simp)] at a
    rw [h2 1 (by simp)] at b
    injection a with a
    injection b with b
    rw [← a] at b
    cases b

/-- The hypotheses of `C77_first` are met: `x1` and then `x0 ∧ x1`. -/
theorem C77_first_concrete : 3 < (bddAndK (envOf false) 3 0 10).calls (demoC false) := by
  have hd : (demoC false).del = [0, 4, 8, 13, 16] := by decide +kernel
  have h : (demoC false).ins[13]? = some ⟨14, 15, 1⟩ ∧ (demoC false).ins[14]? = some botInstr ∧ (demoC false).ins[15]? = some topInstr ∧
      (demoC false).ins[0]? = some ⟨2, 1, 0⟩ ∧ (demoC false).ins[2]? = some botInstr := by decide +kernel
  have hu : CUnfolded (demoC false).ins 13 3 := CUnfolded.node (k := 1) (l := 1) h.1 ⟨by decide, by decide⟩ (.sink h.2.1 fun h => h.1 rfl) (.sink h.2.2.1 fun h => h.2 rfl)
  exact C77_first (demoC_reachable false) (i := 3) (j := 0) (f := 13) (g := 0) (f1 := 16) (g1 := 4) (by rw [Coll.Entry, hd]; exact ⟨rfl, rfl⟩)
    (by rw [Coll.Entry, hd]; exact ⟨rfl, rfl⟩) h.1 h.2.2.2.1 ⟨by decide, by decide⟩ h.2.2.2.2 (by decide) (by decide) (by decide) hu (Or.inr (by omega))

end LBDD
