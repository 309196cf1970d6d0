import Verif.Proof.Coll.Canon
import Verif.Proof.Hist
/-! What `add_bdd` produces, in the vocabulary of the specification. -/
namespace LBDD
section
variable {cfg : Cfg} {md : Md} {refs : Nat → Nat} {s : Mgr} {c : Coll} {p : Nat} {t : Tree}

structure Added (s : Mgr) (c : Coll) (p : Nat) (t : Tree) (md : Md) (c' : Coll) (d0 d1 : Nat) (L : List Nat) : Prop where
  inv : CInv c'
  nr : c'.nrBdds = c.nrBdds + 1
  same : ∀ k, k < c.nrBdds → SameEntry c k c' k
  entry : c'.Entry c.nrBdds d0 d1
  wf : c'.Wf c.nrBdds
  repr : CRepr c'.ins d0 t
  reduced : c'.Reduced c.nrBdds
  connected : c'.Connected c.nrBdds
  ordered : md.ordered → c'.Ordered c.nrBdds
  var : ∀ v, c'.Var c.nrBdds v ↔ Occurs s p v
  lists : Lists s.cells p L
  size : d1 = d0 + (L.length + 2)
  ne : L ≠ []
  bot : c'.ins[d1 - 2]? = some botInstr
  top : c'.ins[d1 - 1]? = some topInstr

theorem added (hi : Inv cfg md refs s) (hc : CInv c) (hp : Repr s.cells p t) (h2 : 2 ≤ p) :
    ∃ c' d0 d1 L, addBdd cfg p (s, c) = .ok c.nrBdds (s, c') ∧ Added s c p t md c' d0 d1 L := by
  obtain ⟨L, hL, e⟩ := addBdd_ok (cfg := cfg) hi hc hp h2
  have hwr := enc_wf (c := c) hi hp hL
  have hent := append_entry (c := c) (xs := encodeAll s.cells c.ins.length L) hc
  have hpL : p ∈ L := (hL.lists.mem p).2 ⟨h2, .refl _⟩
  have hidx : L.idxOf p = 0 := by
    cases L with
    | nil => cases hpL
    | cons q L =>
      have := hL.head
      simp at this; subst this; simp
  have hpos : posIn c.ins.length L p = c.ins.length := by
    unfold posIn; rw [if_neg (by omega), hidx]; rfl
  have hind : ∀ q ∈ L, (s.cells q).index < cBot := fun q hq => index_lt_cBot hi (hL.two hq) (hL.live hi hp hq)
  have hAt : ∀ {i e}, (append c (encodeAll s.cells c.ins.length L)).At c.nrBdds i e → c.ins.length ≤ i ∧
      (append c (encodeAll s.cells c.ins.length L)).ins[i]? = some e := by
    rintro i e' ⟨a, b, g1, g2, g3, g4⟩
    obtain ⟨rfl, rfl⟩ := g1.unique hent
    exact ⟨g2, g4⟩
  have hcase : ∀ {i e'}, (append c (encodeAll s.cells c.ins.length L)).At c.nrBdds i e' → e'.Inner →
      ∃ q ∈ L, i = c.ins.length + L.idxOf q ∧ e' = encode s.cells c.ins.length L q := by
    intro i e' ha hin
    obtain ⟨q1, q2⟩ := hAt ha
    rcases enc_cases hL.lists.nodup q1 q2 with h | ⟨_, rfl⟩ | ⟨_, rfl⟩
    · exact h
    · exact absurd rfl hin.1
    · exact absurd rfl hin.2
  have hat : ∀ q ∈ L, (append c (encodeAll s.cells c.ins.length L)).At c.nrBdds (c.ins.length + L.idxOf q) (encode s.cells c.ins.length L q) := by
    intro q hq
    have := List.idxOf_lt_length_of_mem hq
    exact ⟨_, _, hent, by omega, by rw [encodeAll_length]; omega, enc_node c hq⟩
  refine ⟨append c (encodeAll s.cells c.ins.length L), c.ins.length, c.ins.length + (encodeAll s.cells c.ins.length L).length, L, e, ?_⟩
  refine { inv := append_inv hc hwr, nr := append_nrBdds hc, same := fun k hk => append_same hc hk, entry := hent, wf := ⟨_, _, hent, hwr⟩,
           repr := ?_, reduced := ⟨?_, ?_⟩, connected := ?_, ordered := ?_, var := ?_, lists := hL.lists, size := by rw [encodeAll_length],
           ne := List.ne_nil_of_mem hpL, bot := ?_, top := ?_ }
  · have := enc_repr (c := c) hi hL hp (Or.inr hpL)
    rwa [hpos] at this
  · intro i e' ha hin
    obtain ⟨a, b, g1, g2, g3, g4⟩ := ha
    obtain ⟨rfl, rfl⟩ := g1.unique hent
    exact (hwr.node g2 g3 g4 hin).2.2.1
  · intro i j e' hai haj hin
    exact enc_nodup hi hp hL i j e' (hAt hai).1 (hAt haj).1 hin (hAt hai).2 (hAt haj).2
  · intro d0 i e' hd ha hin
    have : d0 = c.ins.length := by have := hent.1; rw [hd] at this; injection this
    subst this
    obtain ⟨q, hq, rfl, rfl⟩ := hcase ha hin
    have := enc_reach (c := c) hi hL (Or.inr hpL) ((hL.lists.mem q).1 hq).2
    rw [hpos] at this
    have e2 : posIn c.ins.length L q = c.ins.length + L.idxOf q := by
      unfold posIn; rw [if_neg (by have := hL.two hq; omega)]
    rwa [e2] at this
  · intro ho i e' j e'' ha hin hj ha' hin'
    obtain ⟨q, hq, rfl, rfl⟩ := hcase ha hin
    obtain ⟨r, hr, rfl, rfl⟩ := hcase ha' hin'
    show (s.cells q).index < (s.cells r).index
    have pr : posIn c.ins.length L r = c.ins.length + L.idxOf r := by
      unfold posIn; rw [if_neg (by have := hL.two hr; omega)]
    have two : ∀ q ∈ L, 2 ≤ q := fun q hq => hL.two hq
    have hchild : r = (s.cells q).lo ∨ r = (s.cells q).hi := by
      rcases hj with hj | hj
      · exact Or.inl (posIn_inj (N := c.ins.length) two (Or.inr hr) (hL.child hq (Or.inl rfl)) (by rw [pr]; exact hj))
      · exact Or.inr (posIn_inj (N := c.ins.length) two (Or.inr hr) (hL.child hq (Or.inr rfl)) (by rw [pr]; exact hj))
    obtain ⟨tq, htq⟩ := Any.reaches ⟨t, hp⟩ ((hL.lists.mem q).1 hq).2
    have hord := hi.ord ho _ _ htq
    obtain ⟨tl, th, rfl, _, _, h3, h4⟩ := htq.inv (hL.two hq)
    have r2 := hL.two hr
    rcases hchild with rfl | rfl
    · obtain ⟨_, _, e, _⟩ := h3.inv r2
      exact hord.1 _ (by rw [e]; exact Or.inl rfl)
    · obtain ⟨_, _, e, _⟩ := h4.inv r2
      exact hord.2.1 _ (by rw [e]; exact Or.inl rfl)
  · intro v
    constructor
    · rintro ⟨i, e', ha, hin, rfl⟩
      obtain ⟨q, hq, rfl, rfl⟩ := hcase ha hin
      exact ⟨q, hL.two hq, ((hL.lists.mem q).1 hq).2, rfl⟩
    · rintro ⟨q, q2, hr, rfl⟩
      have hq := (hL.lists.mem q).2 ⟨q2, hr⟩
      exact ⟨_, _, hat q hq, Instr.inner_of_lt (hind q hq), rfl⟩
  · rw [encodeAll_length]; exact enc_bot c
  · rw [encodeAll_length]; exact enc_top c
end
end LBDD
