import Verif.Props.Canon
import Verif.Proof.Rehash
/-!
# The memo cache as a data structure (C13)

`MemoReach cfg s L`: the manager `s` has a memo cache into which exactly the entries `L` (operands `f`, `g`, third key `h`: operation
tag or third operand, result `r`) were inserted, in that order, while the rest of the manager changed arbitrarily except for the hash keys of
the operands of entries inserted so far (which never change as long as the nodes are not freed).
-/
namespace LBDD

abbrev MemoLog := List (Nat × Nat × Nat × Nat)

inductive MemoReach (cfg : Cfg) : Mgr → MemoLog → Prop
  | init {s : Mgr} : s.memo = (Mgr.init cfg).memo → MemoReach cfg s []
  | insert {s s' : Mgr} {L : MemoLog} {f g h r : Nat} : MemoReach cfg s L → cacheInsert cfg f g h r s = .ok () s' →
      MemoReach cfg s' (L ++ [(f, g, h, r)])
  | other {s s' : Mgr} {L : MemoLog} : MemoReach cfg s L → s'.memo = s.memo →
      (∀ e ∈ L, (s'.cells e.1).hashKey = (s.cells e.1).hashKey ∧ (s'.cells e.2.1).hashKey = (s.cells e.2.1).hashKey) → MemoReach cfg s' L

/-- `r` is the value inserted last for the key `(f, g, h)`. -/
def Latest (L : MemoLog) (f g h r : Nat) : Prop := ∃ L1 L2, L = L1 ++ (f, g, h, r) :: L2 ∧ ∀ r', (f, g, h, r') ∉ L2

theorem cacheHash_congr {c c' : Nat → Cell} {f g : Nat} (h : Nat) (hf : (c' f).hashKey = (c f).hashKey) (hg : (c' g).hashKey = (c g).hashKey) :
    cacheHash c' f g h = cacheHash c f g h := by
  unfold cacheHash; rw [hf, hg]

structure MInv (cells : Nat → Cell) (m : Memo) (L : MemoLog) : Prop where
  pow : ∃ k, m.size = 2 ^ k
  mask : m.mask + 1 = m.size
  entry : ∀ k, k < m.size → ∀ r, (m.entries k).r = some r → ∃ f g h, m.entries k = ⟨some f, some g, h, some r⟩ ∧
    cacheHash cells f g h % m.size = k ∧ Latest L f g h r

theorem MInv.slot {cells : Nat → Cell} {m : Memo} {L : MemoLog} (hm : MInv cells m L) (x : Nat) : x &&& m.mask = x % m.size := by
  obtain ⟨k, hk⟩ := hm.pow
  rw [and_mask (k := k) x (by rw [hm.mask, hk]), hm.mask]

theorem MInv.double_find {cells : Nat → Cell} {m : Memo} {L : MemoLog} (hm : MInv cells m L) (f g h : Nat) :
    (m.double cells).find cells f g h = m.find cells f g h ∧ MInv cells (m.double cells) L := by
  unfold Memo.double
  split
  · exact ⟨rfl, hm⟩
  · obtain ⟨k, hk⟩ := hm.pow
    have hpos : 0 < m.size := by rw [hk]; exact Nat.two_pow_pos k
    simp only
    generalize he0 : (fun k => if k < m.size then m.entries k else emptyEntry) = e0
    have ent : ∀ i, i < m.size → e0 i = m.entries i := by intro i hi; rw [← he0]; simp [hi]
    have hplace : ∀ i, i < m.size → (e0 i).r.isSome = true → entryHash cells (e0 i) % m.size = i := by
      intro i hi hr
      rw [ent i hi] at hr ⊢
      obtain ⟨r, hr⟩ := Option.isSome_iff_exists.1 hr
      obtain ⟨f, g, h, e, hh, _⟩ := hm.entry i hi r hr
      rw [e]; exact hh
    have hhigh : ∀ i, m.size ≤ i → e0 i = emptyEntry := by intro i hi; rw [← he0]; simp [Nat.not_lt.2 hi]
    have key := memoRehash_moved hk hplace hhigh m.size (Nat.le_refl _)
    generalize hE : (memoRehash cells (2 * m.size - 1) m.size e0) = E at *
    obtain ⟨E1, occ⟩ := E
    simp only at key ⊢
    have hfound : ∀ (f g h r i : Nat), i < m.size → e0 i = ⟨some f, some g, h, some r⟩ → cacheHash cells f g h % m.size = i →
        E1 (cacheHash cells f g h % (2 * m.size)) = ⟨some f, some g, h, some r⟩ := by
      intro f g h r i hi e hh
      have hlt : cacheHash cells f g h % (2 * m.size) < 2 * m.size := Nat.mod_lt _ (by omega)
      have hmm : cacheHash cells f g h % (2 * m.size) % m.size = i := by rw [Nat.mod_mod_of_dvd _ ⟨2, by omega⟩]; exact hh
      have hent : entryHash cells (e0 i) = cacheHash cells f g h := by rw [e]; rfl
      rw [key _ hlt]
      unfold moved
      by_cases hj : cacheHash cells f g h % (2 * m.size) < m.size
      · rw [Nat.mod_eq_of_lt hj] at hmm
        rw [if_pos hj, hmm, if_neg]
        · exact e
        · rintro ⟨_, _, h3⟩; rw [hent] at h3; exact h3 hmm
      · rw [Nat.mod_eq_sub_mod (by omega), Nat.mod_eq_of_lt (by omega)] at hmm
        rw [if_neg hj, hmm, if_pos]
        · exact e
        · exact ⟨by omega, by rw [e]; rfl, by rw [hent]⟩
    have hback : ∀ i, i < 2 * m.size → ∀ r, (E1 i).r = some r → ∃ j, j < m.size ∧ E1 i = e0 j ∧ entryHash cells (e0 j) % (2 * m.size) = i := by
      intro i hi r hr
      rw [key i hi] at hr ⊢
      unfold moved at hr ⊢
      by_cases h : i < m.size
      · rw [if_pos h] at hr ⊢
        by_cases h2 : i < m.size ∧ (e0 i).r.isSome = true ∧ entryHash cells (e0 i) % (2 * m.size) ≠ i
        · rw [if_pos h2] at hr; simp at hr
        · rw [if_neg h2] at hr ⊢
          refine ⟨i, h, rfl, Classical.byContradiction fun hc => h2 ⟨h, by rw [hr]; rfl, hc⟩⟩
      · rw [if_neg h] at hr ⊢
        by_cases h2 : i - m.size < m.size ∧ (e0 (i - m.size)).r.isSome = true ∧ entryHash cells (e0 (i - m.size)) % (2 * m.size) = i
        · rw [if_pos h2]
          exact ⟨i - m.size, h2.1, rfl, h2.2.2⟩
        · rw [if_neg h2] at hr; simp [emptyEntry] at hr
    constructor
    · apply Option.ext
      intro r
      rw [find_iff, find_iff]
      simp only
      constructor
      · intro h1
        have hlt : cacheHash cells f g h % (2 * m.size) < 2 * m.size := Nat.mod_lt _ (by omega)
        obtain ⟨j, hj, e, hh⟩ := hback _ hlt r (by rw [h1])
        rw [h1] at e
        have h2 := hplace j hj (by rw [← e]; rfl)
        rw [← e] at h2
        have h3 : entryHash cells ⟨some f, some g, h, some r⟩ = cacheHash cells f g h := rfl
        rw [h3] at h2
        rw [h2, ← ent j hj, ← e]
      · intro h1
        have hlt : cacheHash cells f g h % m.size < m.size := Nat.mod_lt _ hpos
        exact hfound f g h r _ hlt (by rw [ent _ hlt]; exact h1) rfl
    · refine ⟨⟨k + 1, by show 2 * m.size = _; rw [hk, Nat.pow_succ]; omega⟩, by show 2 * m.size - 1 + 1 = 2 * m.size; omega, ?_⟩
      intro i hi r hr
      show ∃ f g h, E1 i = _ ∧ _ % (2 * m.size) = _ ∧ _
      obtain ⟨j, hj, e, hh⟩ := hback i hi r hr
      simp only at hr
      rw [e] at hr ⊢
      rw [ent j hj] at hr hh ⊢
      obtain ⟨f, g, h, e', _, hl⟩ := hm.entry j hj r hr
      refine ⟨f, g, h, e', ?_, hl⟩
      rw [e'] at hh; exact hh

theorem Latest.snoc {L : MemoLog} {f g h r f' g' h' r' : Nat} (hl : Latest L f g h r) (hne : (f, g, h) ≠ (f', g', h')) :
    Latest (L ++ [(f', g', h', r')]) f g h r := by
  obtain ⟨L1, L2, rfl, hn⟩ := hl
  refine ⟨L1, L2 ++ [(f', g', h', r')], by simp, ?_⟩
  intro r'' hm
  rcases List.mem_append.1 hm with hm | hm
  · exact hn r'' hm
  · simp only [List.mem_singleton, Prod.mk.injEq] at hm
    exact hne (by rw [hm.1, hm.2.1, hm.2.2.1])

/-- The memo after an insertion. -/
theorem MInv.insert {cells : Nat → Cell} {m : Memo} {L : MemoLog} (hm : MInv cells m L) (f g h r : Nat) :
    MInv cells { m with entries := upd m.entries (cacheHash cells f g h % m.size) ⟨some f, some g, h, some r⟩ } (L ++ [(f, g, h, r)]) := by
  refine ⟨hm.pow, hm.mask, ?_⟩
  intro k hk r' hr
  simp only at hk hr ⊢
  by_cases e : k = cacheHash cells f g h % m.size
  · subst e
    rw [upd_same] at hr ⊢
    simp only [Option.some.injEq] at hr
    subst hr
    exact ⟨f, g, h, rfl, rfl, L, [], rfl, by simp⟩
  · rw [upd_ne _ _ e] at hr ⊢
    obtain ⟨f', g', h', e', hh, hl⟩ := hm.entry k hk r' hr
    refine ⟨f', g', h', e', hh, hl.snoc ?_⟩
    intro hc
    simp only [Prod.mk.injEq] at hc
    rw [hc.1, hc.2.1, hc.2.2] at hh
    exact e hh.symm

theorem MInv.counters {cells : Nat → Cell} {m : Memo} {L : MemoLog} (hm : MInv cells m L) (n : Nat) : MInv cells { m with inserts := n } L :=
  ⟨hm.pow, hm.mask, hm.entry⟩

theorem Latest.mem {L : MemoLog} {f g h r : Nat} (hl : Latest L f g h r) : (f, g, h, r) ∈ L := by
  obtain ⟨L1, L2, rfl, _⟩ := hl; simp

section
variable {cfg : Cfg} {s s' : Mgr} {L : MemoLog}

/-- The memo just before the new entry is written (possibly grown). -/
def memoReady (s : Mgr) : Memo :=
  let m := { s.memo with inserts := s.memo.inserts + 1 }
  if m.threshold ≤ m.inserts then m.double s.cells else m

theorem memoReady_inv (hm : MInv s.cells s.memo L) : MInv s.cells (memoReady s) L ∧
    ∀ f g h, (memoReady s).find s.cells f g h = s.memo.find s.cells f g h := by
  unfold memoReady
  simp only
  split
  · exact ⟨((hm.counters _).double_find 0 0 0).2, fun f g h => ((hm.counters _).double_find f g h).1⟩
  · exact ⟨hm.counters _, fun _ _ _ => rfl⟩

theorem cacheInsert_eq (hm : MInv s.cells s.memo L) (f g h r : Nat) : cacheInsert cfg f g h r s = .ok () { s with memo :=
    { memoReady s with entries := upd (memoReady s).entries (cacheHash s.cells f g h % (memoReady s).size) ⟨some f, some g, h, some r⟩ } } := by
  obtain ⟨hr, _⟩ := memoReady_inv hm
  unfold cacheInsert
  rw [M.get_bind_apply]
  show (M.assert cfg.ndebug ((memoReady s).mask + 1 == (memoReady s).size) >>= fun _ =>
    if (memoReady s).size ≤ cacheHash s.cells f g h &&& (memoReady s).mask then M.ub else _) s = _
  rw [M.assert_bind_apply (by simp [hr.mask])]
  rw [hr.slot]
  obtain ⟨k, hk⟩ := hr.pow
  have : cacheHash s.cells f g h % (memoReady s).size < (memoReady s).size := Nat.mod_lt _ (by rw [hk]; exact Nat.two_pow_pos k)
  rw [if_neg (by omega), ← hr.slot]
  rfl

theorem MemoReach.inv (h : MemoReach cfg s L) : MInv s.cells s.memo L := by
  induction h with
  | @init s e =>
    rw [e]
    refine ⟨⟨0, rfl⟩, rfl, ?_⟩
    intro k _ r hr
    simp [Mgr.init, emptyEntry] at hr
  | @insert s s' L f g h r _ e ih =>
    rw [cacheInsert_eq ih] at e
    cases e
    exact ((memoReady_inv ih).1).insert f g h r
  | @other s s' L _ hm hk ih =>
    rw [hm]
    refine ⟨ih.pow, ih.mask, ?_⟩
    intro k hk' r hr
    obtain ⟨f, g, h, e, hh, hl⟩ := ih.entry k hk' r hr
    obtain ⟨h1, h2⟩ := hk _ hl.mem
    exact ⟨f, g, h, e, by rw [cacheHash_congr h h1 h2]; exact hh, hl⟩

theorem cacheLookup_eq (hm : MInv s.cells s.memo L) (hx : ∀ p, 0 ≤ (s.cells p).xref) (f g h : Nat) :
    cacheLookup cfg f g h s = .ok (s.memo.find s.cells f g h) s := by
  unfold cacheLookup
  rw [M.get_bind_apply, M.assert_bind_apply (by simp [hm.mask])]
  simp only
  rw [hm.slot]
  obtain ⟨k, hk⟩ := hm.pow
  have : cacheHash s.cells f g h % s.memo.size < s.memo.size := Nat.mod_lt _ (by rw [hk]; exact Nat.two_pow_pos k)
  rw [if_neg (by omega)]
  unfold Memo.find
  simp only
  generalize s.memo.entries (cacheHash s.cells f g h % s.memo.size) = e
  cases hr : e.r with
  | none => simp only; split <;> rfl
  | some r =>
    simp only
    split
    · rw [if_neg (by have := hx r; omega)]; rfl
    · rfl

/-! ## C13 -/

/-- C13 (first part): a lookup never fails, changes nothing, and can only return the value inserted last for exactly the same key. -/
theorem C13_lookup_exact (h : MemoReach cfg s L) (hx : ∀ p, 0 ≤ (s.cells p).xref) (f g k : Nat) :
    ∃ o, cacheLookup cfg f g k s = .ok o s ∧ ∀ r, o = some r → Latest L f g k r := by
  have hi := h.inv
  refine ⟨_, cacheLookup_eq hi hx f g k, ?_⟩
  intro r hr
  rw [find_iff] at hr
  have hlt : cacheHash s.cells f g k % s.memo.size < s.memo.size := by
    obtain ⟨e, he⟩ := hi.pow
    exact Nat.mod_lt _ (by rw [he]; exact Nat.two_pow_pos e)
  obtain ⟨f', g', h', e, _, hl⟩ := hi.entry _ hlt r (by rw [hr])
  rw [hr] at e
  simp only [MemoEntry.mk.injEq, Option.some.injEq] at e
  obtain ⟨rfl, rfl, rfl, _⟩ := e
  exact hl

/-- C13 (first part): inserting succeeds, and a lookup of the key just inserted returns the inserted value. -/
theorem C13_insert_found (h : MemoReach cfg s L) (hx : ∀ p, 0 ≤ (s.cells p).xref) (f g k r : Nat) :
    ∃ s', cacheInsert cfg f g k r s = .ok () s' ∧ s'.cells = s.cells ∧ cacheLookup cfg f g k s' = .ok (some r) s' := by
  have hi := h.inv
  refine ⟨_, cacheInsert_eq hi f g k r, rfl, ?_⟩
  have h' := (MemoReach.insert h (cacheInsert_eq hi f g k r)).inv
  rw [cacheLookup_eq (L := L ++ [(f, g, k, r)]) h' hx]
  congr 1
  rw [find_iff]
  simp

/-- C13 (second part): growing the cache loses no entry and adds none: every lookup gives the same answer before and after. -/
theorem C13_growth_lossless (h : MemoReach cfg s L) (hx : ∀ p, 0 ≤ (s.cells p).xref) (f g k : Nat) :
    ∃ o, cacheLookup cfg f g k s = .ok o s ∧
      cacheLookup cfg f g k { s with memo := s.memo.double s.cells } = .ok o { s with memo := s.memo.double s.cells } := by
  have hi := h.inv
  obtain ⟨h1, h2⟩ := hi.double_find f g k
  refine ⟨_, cacheLookup_eq hi hx f g k, ?_⟩
  rw [cacheLookup_eq (s := { s with memo := s.memo.double s.cells }) (L := L) h2 hx f g k]
  congr 1
end

section
variable {cfg : Cfg} {u : Use} {a : Api} {f g r : Nat} {F G : List Bool → Bool}

/-- C13 (third part, conjunction): in every reachable state and discipline, what the cache answers for a conjunction is their conjunction. -/
theorem C13_and_entries_true (hR : Reachable cfg u a) (dF : Denotes cfg a.mgr f F)
    (dG : Denotes cfg a.mgr g G) (e : cacheLookup cfg f g andTag a.mgr = .ok (some r) a.mgr) :
    Denotes cfg a.mgr r (fun x => F x && G x) := by
  obtain ⟨o, e', ho⟩ := cacheLookup_ok (cfg := cfg) hR.good f g andTag
  rw [e] at e'
  injection e' with e' _
  subst e'
  obtain ⟨f', g', tf, tg, tr, h1, h2, h3, h4, h5, h6⟩ := ho r rfl r rfl
  simp only [Option.some.injEq] at h1 h2
  subst h1 h2
  intro x hx
  show EvalsTo _ _ _ _ (F x && G x)
  rw [dF.eq (denotes_repr hR.good h3) hx, dG.eq (denotes_repr hR.good h4) hx]
  rcases h6 with ⟨_, h6, _⟩ | ⟨h6, _⟩ | ⟨q, _, h6, _⟩
  · rw [← h6]; exact evals_repr hR.good h5 hx
  · simp [andTag, orTag] at h6
  · have := cfg.addr_big q; simp [andTag] at h6; omega

/-- C13 (third part, disjunction), for histories without `xor_rec`; false otherwise (`C02_refuted`, `C04_refuted`). -/
theorem C13_or_entries_true_partial (hR : Reachable cfg u a) (hu : u = .ordered ∨ u = .unordered)
    (dF : Denotes cfg a.mgr f F) (dG : Denotes cfg a.mgr g G) (e : cacheLookup cfg f g orTag a.mgr = .ok (some r) a.mgr) :
    Denotes cfg a.mgr r (fun x => F x || G x) := by
  obtain ⟨o, e', ho⟩ := cacheLookup_ok (cfg := cfg) hR.good f g orTag
  rw [e] at e'
  injection e' with e' _
  subst e'
  obtain ⟨f', g', tf, tg, tr, h1, h2, h3, h4, h5, h6⟩ := ho r rfl r rfl
  simp only [Option.some.injEq] at h1 h2
  subst h1 h2
  have hm : u.md.sem = fun a b c => c = (a || b) := (Use.orMode hu).sem
  intro x hx
  show EvalsTo _ _ _ _ (F x || G x)
  rw [dF.eq (denotes_repr hR.good h3) hx, dG.eq (denotes_repr hR.good h4) hx]
  rcases h6 with ⟨h6, _⟩ | ⟨_, h6, _⟩ | ⟨q, _, h6, _⟩
  · simp [andTag, orTag] at h6
  · have := h6 (asg x)
    rw [hm] at this
    show EvalsTo _ _ _ _ (tf.eval (asg x) || tg.eval (asg x))
    rw [← this]
    exact evals_repr hR.good h5 hx
  · have := cfg.addr_big q; simp [orTag] at h6; omega
end

/-- Instance for the data-structure part: three insertions under two keys. -/
example : ∃ s, MemoReach (envOf false) s ([] ++ [(2, 3, andTag, 5)] ++ [(2, 3, orTag, 6)] ++ [(2, 3, andTag, 7)]) := by
  let s0 := (demo .ordered).mgr
  let s1 : Mgr := { s0 with memo := (Mgr.init (envOf false)).memo }
  have h1 : MemoReach (envOf false) s1 [] := .init rfl
  have e1 := cacheInsert_eq (cfg := envOf false) h1.inv 2 3 andTag 5
  have h2 := MemoReach.insert h1 e1
  have e2 := cacheInsert_eq (cfg := envOf false) h2.inv 2 3 orTag 6
  have h3 := MemoReach.insert h2 e2
  have e3 := cacheInsert_eq (cfg := envOf false) h3.inv 2 3 andTag 7
  have h4 := MemoReach.insert h3 e3
  exact ⟨_, h4⟩

/-- Instance for the semantic part: the demo state has cached `x2 ∨ (x0 ∧ x1)`. -/
example : Reachable (envOf false) .ordered (demo .ordered) ∧ (demo .ordered).Holds 4 ∧ (demo .ordered).Holds 5 ∧
    ∃ r, cacheLookup (envOf false) 4 5 orTag (demo .ordered).mgr = .ok (some r) (demo .ordered).mgr := by
  refine ⟨demo_reachable _, ?_, ?_, ?_⟩
  · unfold Api.Holds; rw [demo_hs]; decide
  · unfold Api.Holds; rw [demo_hs]; decide
  · obtain ⟨o, e, _⟩ := cacheLookup_ok (cfg := envOf false) (demo_reachable .ordered).good 4 5 orTag
    have : (resOf (cacheLookup (envOf false) 4 5 orTag (demo .ordered).mgr) none (demo .ordered).mgr).1 = some 9 := by decide +kernel
    rw [e] at this
    simp only [resOf] at this
    subst this
    exact ⟨9, e⟩

end LBDD
