import Verif.Model.Mgr
import Verif.Proof.Sat
/-! Linear probing: the unique table of one variable as a set of nodes. -/
namespace LBDD

theorem and_mask {k mask : Nat} (a : Nat) (h : mask + 1 = 2 ^ k) : a &&& mask = a % (mask + 1) := by
  have : mask = 2 ^ k - 1 := by omega
  rw [this, Nat.and_two_pow_sub_one_eq_mod]
  congr 1
  have := Nat.two_pow_pos k
  omega

/-- Slot `i` is reached from hash `a` by linear probing over occupied slots only. -/
def Reach (n : Nat) (sl : Nat → Option Nat) (a i : Nat) : Prop :=
  ∃ d, d < n ∧ (a + d) % n = i ∧ ∀ e, e < d → sl ((a + e) % n) ≠ none

/-- The slots `0..n-1` store exactly the nodes in `S`, each once, each findable from its hash. -/
structure Slots (n : Nat) (hsh : Nat → Nat) (S : Nat → Prop) (sl : Nat → Option Nat) : Prop where
  sound : ∀ i p, i < n → sl i = some p → S p
  complete : ∀ p, S p → ∃ i, i < n ∧ sl i = some p
  inj : ∀ i j p, i < n → j < n → sl i = some p → sl j = some p → i = j
  reach : ∀ i p, i < n → sl i = some p → Reach n sl (hsh p) i

theorem Slots.congr {n : Nat} {hsh hsh' : Nat → Nat} {S S' : Nat → Prop} {sl : Nat → Option Nat}
    (h : Slots n hsh S sl) (hS : ∀ p, S' p ↔ S p) (hh : ∀ p, S p → hsh' p = hsh p) :
    Slots n hsh' S' sl where
  sound i p hi hp := (hS p).2 (h.sound i p hi hp)
  complete p hp := h.complete p ((hS p).1 hp)
  inj := h.inj
  reach i p hi hp := by rw [hh p (h.sound i p hi hp)]; exact h.reach i p hi hp

theorem Reach.upd {n : Nat} {sl : Nat → Option Nat} {a i k p : Nat} (h : Reach n sl a i) :
    Reach n (upd sl k (some p)) a i := by
  obtain ⟨d, h1, h2, h3⟩ := h
  refine ⟨d, h1, h2, fun e he => ?_⟩
  by_cases hk : (a + e) % n = k
  · rw [hk, upd_same]; simp
  · rw [upd_ne _ _ hk]; exact h3 e he

theorem Slots.insert {n : Nat} {hsh : Nat → Nat} {S : Nat → Prop} {sl : Nat → Option Nat} {p i : Nat}
    (h : Slots n hsh S sl) (hp : ¬ S p) (hi : i < n) (hn : sl i = none) (hr : Reach n sl (hsh p) i) :
    Slots n hsh (fun q => q = p ∨ S q) (upd sl i (some p)) where
  sound j q hj hq := by
    by_cases e : j = i
    · subst e; rw [upd_same] at hq; left; exact (Option.some.inj hq).symm
    · rw [upd_ne _ _ e] at hq; exact Or.inr (h.sound j q hj hq)
  complete q hq := by
    rcases hq with rfl | hq
    · exact ⟨i, hi, upd_same _ _ _⟩
    · obtain ⟨j, hj, hjq⟩ := h.complete q hq
      refine ⟨j, hj, ?_⟩
      rw [upd_ne _ _ (by rintro rfl; simp [hn] at hjq)]; exact hjq
  inj j k q hj hk hjq hkq := by
    by_cases ej : j = i <;> by_cases ek : k = i
    · omega
    · subst ej; rw [upd_same] at hjq; rw [upd_ne _ _ ek] at hkq
      cases hjq; exact absurd (h.sound k p hk hkq) hp
    · subst ek; rw [upd_same] at hkq; rw [upd_ne _ _ ej] at hjq
      cases hkq; exact absurd (h.sound j p hj hjq) hp
    · rw [upd_ne _ _ ej] at hjq; rw [upd_ne _ _ ek] at hkq; exact h.inj j k q hj hk hjq hkq
  reach j q hj hq := by
    by_cases e : j = i
    · subst e; rw [upd_same] at hq; cases hq; exact hr.upd
    · rw [upd_ne _ _ e] at hq; exact (h.reach j q hj hq).upd

theorem Slots.empty (n : Nat) (hsh : Nat → Nat) : Slots n hsh (fun _ => False) (fun _ => none) where
  sound _ _ _ h := by simp at h
  complete _ h := h.elim
  inj _ _ _ _ _ h := by simp at h
  reach _ _ _ h := by simp at h

/-! ### counting free slots -/

theorem countFree_le (sl : Nat → Option Nat) (n : Nat) : countFree sl n ≤ n := by
  induction n with
  | zero => simp [countFree]
  | succ n ih => simp only [countFree]; split <;> omega

theorem countFree_pos {sl : Nat → Option Nat} {n : Nat} (h : 0 < countFree sl n) : ∃ i, i < n ∧ sl i = none := by
  induction n with
  | zero => simp [countFree] at h
  | succ n ih =>
    simp only [countFree] at h
    by_cases hs : (sl n).isNone
    · exact ⟨n, by omega, by simpa using hs⟩
    · rw [if_neg hs] at h
      obtain ⟨i, hi, h'⟩ := ih (by omega)
      exact ⟨i, by omega, h'⟩

theorem countFree_congr {sl sl' : Nat → Option Nat} {n : Nat} (h : ∀ i, i < n → sl i = sl' i) :
    countFree sl n = countFree sl' n := by
  induction n with
  | zero => rfl
  | succ n ih => simp only [countFree]; rw [ih (fun i hi => h i (by omega)), h n (by omega)]

theorem countFree_upd {sl : Nat → Option Nat} {n i p : Nat} (hi : i < n) (hn : sl i = none) :
    countFree (upd sl i (some p)) n + 1 = countFree sl n := by
  induction n with
  | zero => omega
  | succ n ih =>
    simp only [countFree]
    by_cases e : i = n
    · subst e
      rw [upd_same, hn]
      rw [countFree_congr (sl' := sl) (fun j hj => upd_ne _ _ (by omega))]
      simp
    · rw [upd_ne _ _ (by omega)]
      have := ih (by omega)
      omega

theorem countFree_empty (n : Nat) : countFree (fun _ => none) n = n := by
  induction n with
  | zero => rfl
  | succ n ih => simp [countFree, ih]

/-- The nodes stored in the first `n` slots, when no node is stored twice. -/
theorem occupied_list {sl : Nat → Option Nat} : ∀ (n : Nat),
    (∀ i j p, i < n → j < n → sl i = some p → sl j = some p → i = j) →
    ∃ l : List Nat, l.Nodup ∧ l.length + countFree sl n = n ∧ ∀ p ∈ l, ∃ i, i < n ∧ sl i = some p := by
  intro n
  induction n with
  | zero => intro _; exact ⟨[], by simp, rfl, by simp⟩
  | succ n ih =>
    intro hinj
    obtain ⟨l, h1, h2, h3⟩ := ih (fun i j p hi hj => hinj i j p (by omega) (by omega))
    cases e : sl n with
    | none =>
      refine ⟨l, h1, ?_, fun p hp => ?_⟩
      · simp only [countFree, e, Option.isNone_none, if_true]; omega
      · obtain ⟨i, a, b⟩ := h3 p hp; exact ⟨i, by omega, b⟩
    | some q =>
      refine ⟨q :: l, ?_, ?_, ?_⟩
      · refine List.nodup_cons.2 ⟨fun hm => ?_, h1⟩
        obtain ⟨i, a, b⟩ := h3 q hm
        have := hinj i n q (by omega) (by omega) b e
        omega
      · simp only [countFree, e, Option.isNone_some, Bool.false_eq_true, if_false, List.length_cons]; omega
      · intro p hp
        rcases List.mem_cons.1 hp with rfl | hp
        · exact ⟨n, by omega, e⟩
        · obtain ⟨i, a, b⟩ := h3 p hp; exact ⟨i, by omega, b⟩

/-! ### the probing loops -/

/-- Every slot is at some distance less than `n` from every start. -/
theorem exists_dist {n : Nat} (a i : Nat) (hi : i < n) : ∃ d, d < n ∧ (a + d) % n = i := by
  have hn : 0 < n := by omega
  by_cases h : a % n ≤ i
  · refine ⟨i - a % n, by omega, ?_⟩
    rw [Nat.add_mod, Nat.mod_eq_of_lt (a := i - a % n) (by omega)]
    rw [show a % n + (i - a % n) = i by omega]; exact Nat.mod_eq_of_lt hi
  · have := Nat.mod_lt a hn
    refine ⟨n - (a % n) + i, by omega, ?_⟩
    rw [Nat.add_mod, Nat.mod_eq_of_lt (a := n - a % n + i) (by omega)]
    rw [show a % n + (n - a % n + i) = i + n by omega, Nat.add_mod_right]; exact Nat.mod_eq_of_lt hi

theorem probeFree_ok {t : VarTable} {k : Nat} (hk : t.mask + 1 = 2 ^ k) (hc : t.mask + 1 ≤ t.cap) :
    ∀ (m l : Nat), (∃ d, d < m ∧ t.slots ((l + d) % (t.mask + 1)) = none) →
      ∃ d, d < m ∧ probeFree t m l = .ok ((l + d) % (t.mask + 1)) ∧
        t.slots ((l + d) % (t.mask + 1)) = none ∧
        ∀ e, e < d → t.slots ((l + e) % (t.mask + 1)) ≠ none := by
  intro m
  induction m with
  | zero => rintro l ⟨d, hd, _⟩; omega
  | succ m ih =>
    rintro l ⟨d, hd, hn⟩
    simp only [probeFree, and_mask l hk]
    have hlt : l % (t.mask + 1) < t.mask + 1 := Nat.mod_lt _ (by omega)
    rw [if_neg (by omega)]
    cases hs : t.slots (l % (t.mask + 1)) with
    | none => exact ⟨0, by omega, by simp, by simpa using hs, by simp⟩
    | some q =>
      have hd0 : d ≠ 0 := by rintro rfl; simp [hs] at hn
      obtain ⟨d', h1, h2, h3, h4⟩ := ih (l + 1) ⟨d - 1, by omega, by
        rw [show l + 1 + (d - 1) = l + d by omega]; exact hn⟩
      refine ⟨d' + 1, by omega, ?_, ?_, ?_⟩
      · rw [h2, show l + 1 + d' = l + (d' + 1) by omega]
      · rw [show l + (d' + 1) = l + 1 + d' by omega]; exact h3
      · intro e he
        cases e with
        | zero => simp [hs]
        | succ e => rw [show l + (e + 1) = l + 1 + e by omega]; exact h4 e (by omega)

theorem nextFreeSlot_ok {t : VarTable} {k : Nat} (hk : t.mask + 1 = 2 ^ k) (hc : t.mask + 1 ≤ t.cap)
    (a : Nat) (hf : 0 < countFree t.slots (t.mask + 1)) :
    ∃ i, nextFreeSlot t a = .ok i ∧ i < t.mask + 1 ∧ t.slots i = none ∧ Reach (t.mask + 1) t.slots a i := by
  obtain ⟨i, hi, hn⟩ := countFree_pos hf
  obtain ⟨d, hd, hdi⟩ := exists_dist (n := t.mask + 1) a i hi
  obtain ⟨d', h1, h2, h3, h4⟩ := probeFree_ok hk hc (t.mask + 1) a ⟨d, hd, by rw [hdi]; exact hn⟩
  exact ⟨_, h2, Nat.mod_lt _ (by omega), h3, d', h1, rfl, h4⟩

theorem probeKey_ok {cells : Nat → Cell} {t : VarTable} {l h k : Nat} (hk : t.mask + 1 = 2 ^ k)
    (hc : t.mask + 1 ≤ t.cap)
    (hlive : ∀ i p, i < t.mask + 1 → t.slots i = some p → (cells p).live = true) :
    ∀ (m a : Nat), (∃ d, d < m ∧ t.slots ((a + d) % (t.mask + 1)) = none) →
      (probeKey cells t l h m a = .ok none ∧
        ∃ d, d < m ∧ t.slots ((a + d) % (t.mask + 1)) = none ∧
          ∀ e, e < d → ∃ p, t.slots ((a + e) % (t.mask + 1)) = some p ∧
            ¬ ((cells p).lo = l ∧ (cells p).hi = h)) ∨
      (∃ i p, probeKey cells t l h m a = .ok (some p) ∧ i < t.mask + 1 ∧ t.slots i = some p ∧
          (cells p).lo = l ∧ (cells p).hi = h) := by
  intro m
  induction m with
  | zero => rintro a ⟨d, hd, _⟩; omega
  | succ m ih =>
    rintro a ⟨d, hd, hn⟩
    simp only [probeKey, and_mask a hk]
    have hlt : a % (t.mask + 1) < t.mask + 1 := Nat.mod_lt _ (by omega)
    rw [if_neg (by omega)]
    cases hs : t.slots (a % (t.mask + 1)) with
    | none => exact Or.inl ⟨rfl, 0, by omega, by simpa using hs, by simp⟩
    | some q =>
      have hq := hlive _ _ hlt hs
      simp only [hq, Bool.not_true, Bool.false_eq_true, if_false]
      by_cases hm : (cells q).lo = l ∧ (cells q).hi = h
      · rw [if_pos hm]
        exact Or.inr ⟨_, q, rfl, hlt, hs, hm.1, hm.2⟩
      · rw [if_neg hm]
        have hd0 : d ≠ 0 := by rintro rfl; simp [hs] at hn
        rcases ih (a + 1) ⟨d - 1, by omega, by
          rw [show a + 1 + (d - 1) = a + d by omega]; exact hn⟩ with ⟨h1, d', h2, h3, h4⟩ | h1
        · refine Or.inl ⟨h1, d' + 1, by omega, ?_, ?_⟩
          · rw [show a + (d' + 1) = a + 1 + d' by omega]; exact h3
          · intro e he
            cases e with
            | zero => exact ⟨q, by simpa using hs, hm⟩
            | succ e => rw [show a + (e + 1) = a + 1 + e by omega]; exact h4 e (by omega)
        · exact Or.inr h1

/-- `unique_table_lookup` finds a node iff it is stored. -/
theorem tableLookup_ok {cells : Nat → Cell} {t : VarTable} {S : Nat → Prop} {l h k : Nat}
    (hk : t.mask + 1 = 2 ^ k) (hc : t.mask + 1 ≤ t.cap)
    (hs : Slots (t.mask + 1) (fun p => hashCode cells (cells p).lo (cells p).hi) S t.slots)
    (hlive : ∀ p, S p → (cells p).live = true)
    (hf : 0 < countFree t.slots (t.mask + 1)) :
    (tableLookup cells t l h = .ok none ∧ ∀ p, S p → ¬ ((cells p).lo = l ∧ (cells p).hi = h)) ∨
    (∃ p, tableLookup cells t l h = .ok (some p) ∧ S p ∧ (cells p).lo = l ∧ (cells p).hi = h) := by
  obtain ⟨i, hi, hn⟩ := countFree_pos hf
  obtain ⟨d, hd, hdi⟩ := exists_dist (n := t.mask + 1) (hashCode cells l h) i hi
  rcases probeKey_ok (l := l) (h := h) hk hc (fun i p hi hp => hlive p (hs.sound i p hi hp))
    (t.mask + 1) (hashCode cells l h) ⟨d, hd, by rw [hdi]; exact hn⟩ with ⟨h1, d', h2, h3, h4⟩ | ⟨i, p, h1, h2, h3, h4⟩
  · refine Or.inl ⟨h1, fun p hp hm => ?_⟩
    obtain ⟨j, hj, hjp⟩ := hs.complete p hp
    obtain ⟨e, he, hej, hocc⟩ := hs.reach j p hj hjp
    simp only [hm.1, hm.2] at hej hocc
    rcases Nat.lt_trichotomy e d' with hlt | heq | hgt
    · obtain ⟨q, hq, hnq⟩ := h4 e hlt
      rw [hej, hjp] at hq
      cases hq
      exact hnq hm
    · subst heq; rw [hej, hjp] at h3; cases h3
    · exact hocc d' hgt h3
  · exact Or.inr ⟨p, h1, hs.sound i p h2 h3, h4⟩

/-! ### growing -/

/-- The rehash loop moves every entry of the old table to the new one. -/
theorem rehash_ok {cells : Nat → Cell} {old : VarTable} {k : Nat} {hsh : Nat → Nat}
    (hh : hsh = fun p => hashCode cells (cells p).lo (cells p).hi)
    (hinj : ∀ i j p, i < old.mask + 1 → j < old.mask + 1 → old.slots i = some p → old.slots j = some p → i = j)
    (hcap : old.mask + 1 ≤ old.cap) :
    ∀ (n j : Nat) (t : VarTable), j + n = old.mask + 1 → t.mask + 1 = 2 ^ k → t.mask + 1 ≤ t.cap →
      old.mask + 1 < t.mask + 1 →
      Slots (t.mask + 1) hsh (fun p => ∃ i, i < j ∧ old.slots i = some p) t.slots →
      countFree t.slots (t.mask + 1) + j = t.mask + 1 + countFree old.slots j →
      ∃ t', rehash cells old j n t = .ok t' ∧ t'.mask = t.mask ∧ t'.cap = t.cap ∧ t'.timer = t.timer ∧
        Slots (t.mask + 1) hsh (fun p => ∃ i, i < old.mask + 1 ∧ old.slots i = some p) t'.slots ∧
        countFree t'.slots (t.mask + 1) + (old.mask + 1) = t.mask + 1 + countFree old.slots (old.mask + 1) := by
  intro n
  induction n with
  | zero =>
    intro j t hj hk hc hlt hs hcount
    have : j = old.mask + 1 := by omega
    subst this
    exact ⟨t, rfl, rfl, rfl, rfl, hs, hcount⟩
  | succ n ih =>
    intro j t hj hk hc hlt hs hcount
    simp only [rehash]
    rw [if_neg (by omega)]
    cases ho : old.slots j with
    | none =>
      refine ih (j + 1) t (by omega) hk hc hlt ?_ ?_
      · refine hs.congr ?_ (fun _ _ => rfl)
        intro p
        constructor
        · rintro ⟨i, hi, hp⟩
          refine ⟨i, ?_, hp⟩
          rcases Nat.lt_succ_iff_lt_or_eq.1 hi with h | h
          · exact h
          · subst h; rw [ho] at hp; cases hp
        · rintro ⟨i, hi, hp⟩; exact ⟨i, by omega, hp⟩
      · have : countFree old.slots (j + 1) = countFree old.slots j + 1 := by simp [countFree, ho]
        omega
    | some p =>
      have hfree : 0 < countFree t.slots (t.mask + 1) := by omega
      obtain ⟨i, h1, h2, h3, h4⟩ := nextFreeSlot_ok hk hc
        (hashCode cells (cells p).lo (cells p).hi &&& t.mask) hfree
      simp only [h1]
      have hre : Reach (t.mask + 1) t.slots (hsh p) i := by
        obtain ⟨d, hd, hdi, hocc⟩ := h4
        rw [and_mask _ hk] at hdi hocc
        refine ⟨d, hd, ?_, fun e he => ?_⟩
        · rw [← hdi, hh]; simp [Nat.add_mod]
        · have := hocc e he; rw [hh]; simpa [Nat.add_mod] using this
      have hnew : ¬ ∃ i, i < j ∧ old.slots i = some p := by
        rintro ⟨i, hi, hp⟩
        have := hinj i j p (by omega) (by omega) hp ho
        omega
      have hs' := hs.insert hnew h2 h3 hre
      have := ih (j + 1) { t with slots := upd t.slots i (some p) } (by omega) hk hc hlt ?_ ?_
      · exact this
      · refine hs'.congr ?_ (fun _ _ => rfl)
        intro q
        constructor
        · rintro ⟨i', hi', hq⟩
          rcases Nat.lt_succ_iff_lt_or_eq.1 hi' with h | h
          · exact Or.inr ⟨i', h, hq⟩
          · subst h; rw [ho] at hq; cases hq; exact Or.inl rfl
        · rintro (rfl | ⟨i', hi', hq⟩)
          · exact ⟨j, by omega, ho⟩
          · exact ⟨i', by omega, hq⟩
      · have h5 := countFree_upd (p := p) h2 h3
        have : countFree old.slots (j + 1) = countFree old.slots j := by simp [countFree, ho]
        show countFree (upd t.slots i (some p)) (t.mask + 1) + (j + 1) = t.mask + 1 + _
        omega

end LBDD
