import Verif.Proof.Text
/-! The text written by `export_graphviz`: reading it back. -/
namespace LBDD

/-- `t` consists of the lines `ls`, each ended by a newline. -/
def Lined (t : List Char) (ls : List (List Char)) : Prop := ∀ r, textLines (t ++ r) = ls ++ textLines r

theorem Lined.nil : Lined [] [] := fun _ => rfl

theorem Lined.append {t t' : List Char} {ls ls' : List (List Char)} (h : Lined t ls) (h' : Lined t' ls') : Lined (t ++ t') (ls ++ ls') := by
  intro r
  rw [List.append_assoc, h, h', List.append_assoc]

theorem Lined.line {t : List Char} (l : List Char) (h : t = l ++ ['\n']) (hn : '\n' ∉ l) : Lined t [l] := by
  intro r
  subst h
  simp only [List.append_assoc, List.cons_append, List.nil_append]
  rw [textLines_line _ _ hn]

theorem Lined.flatMap {α : Type} {f : α → List Char} {g : α → List (List Char)} : ∀ (l : List α), (∀ a ∈ l, Lined (f a) (g a)) →
    Lined (l.flatMap f) (l.flatMap g)
  | [], _ => .nil
  | a :: l, h => by
    simp only [List.flatMap_cons]
    exact (h a (by simp)).append (Lined.flatMap l (fun b hb => h b (by simp [hb])))

theorem Lined.lines {t : List Char} {ls : List (List Char)} (h : Lined t ls) : textLines t = ls := by
  have := h []
  simpa [textLines] using this

/-- The lines of `t` hold the nodes `a` and the arcs `b`. -/
def GvSays (t : List Char) (a : List (Nat × GvLabel)) (b : List (Nat × Bool × Nat)) : Prop :=
  ∃ ls, Lined t ls ∧ ls.filterMap readGvLabel = a ∧ ls.filterMap readGvArc = b

theorem GvSays.nil : GvSays [] [] [] := ⟨[], .nil, rfl, rfl⟩

theorem GvSays.append {t t' : List Char} {a a' : List (Nat × GvLabel)} {b b' : List (Nat × Bool × Nat)} (h : GvSays t a b) (h' : GvSays t' a' b') :
    GvSays (t ++ t') (a ++ a') (b ++ b') := by
  obtain ⟨l, h1, h2, h3⟩ := h
  obtain ⟨l', h1', h2', h3'⟩ := h'
  exact ⟨l ++ l', h1.append h1', by rw [List.filterMap_append, h2, h2'], by rw [List.filterMap_append, h3, h3']⟩

theorem GvSays.flatMap {α : Type} {f : α → List Char} {g : α → List (Nat × GvLabel)} {k : α → List (Nat × Bool × Nat)} : ∀ (l : List α),
    (∀ a ∈ l, GvSays (f a) (g a) (k a)) → GvSays (l.flatMap f) (l.flatMap g) (l.flatMap k)
  | [], _ => .nil
  | a :: l, h => by
    simp only [List.flatMap_cons]
    exact (h a (by simp)).append (GvSays.flatMap l (fun b hb => h b (by simp [hb])))

theorem GvSays.line {t : List Char} (l : List Char) (h : t = l ++ ['\n']) (hn : '\n' ∉ l) :
    GvSays t (readGvLabel l).toList (readGvArc l).toList := by
  refine ⟨[l], .line l h hn, ?_, ?_⟩
  · cases e : readGvLabel l <;> simp [e]
  · cases e : readGvArc l <;> simp [e]

theorem readNat_none {c : Char} {r : List Char} (h : c.isDigit = false) : readNat (c :: r) = none := by
  unfold readNat
  simp [h]

/-- A line that starts with a character other than a digit holds nothing. -/
theorem GvSays.other {t : List Char} (c : Char) (l : List Char) (h : t = (c :: l) ++ ['\n']) (hd : c.isDigit = false) (hc : c ≠ '\n') (hn : '\n' ∉ l) :
    GvSays t [] [] := by
  have := GvSays.line (c :: l) h (by simp [hn]; exact fun e => hc e.symm)
  unfold readGvLabel readGvArc at this
  rw [readNat_none hd] at this
  exact this

theorem holds_label (i : Nat) (w : String) (lab : GvLabel) (hw : readNat w.toList = none)
    (h : (w = "top\"];" ∧ lab = .top) ∨ (w = "bot\"];" ∧ lab = .bot)) :
    readGvLabel (dec i ++ " [label=\"".toList ++ w.toList) = some (i, lab) ∧ readGvArc (dec i ++ " [label=\"".toList ++ w.toList) = none := by
  have hr : readNat (dec i ++ (" [label=\"".toList ++ w.toList)) = some (i, " [label=\"".toList ++ w.toList) :=
    readNat_dec i (by intro c hc; simp at hc; subst hc; decide)
  unfold readGvLabel readGvArc
  simp only [List.append_assoc]
  rw [hr]
  simp only [Option.bind_eq_bind, Option.bind_some]
  rw [readLit_append]
  have : readLit " -> " (" [label=\"".toList ++ w.toList) = none := by simp [readLit, List.isPrefixOf]
  rw [this]
  refine ⟨?_, rfl⟩
  simp only [Option.bind_some]
  rcases h with ⟨rfl, rfl⟩ | ⟨rfl, rfl⟩
  · rw [if_pos rfl]
  · rw [if_neg (by decide), if_pos rfl]

theorem holds_var (i v : Nat) :
    readGvLabel (dec i ++ " [label=\"".toList ++ dec v ++ "\"];".toList) = some (i, .var v) ∧
    readGvArc (dec i ++ " [label=\"".toList ++ dec v ++ "\"];".toList) = none := by
  have hr : readNat (dec i ++ (" [label=\"".toList ++ (dec v ++ "\"];".toList))) = some (i, " [label=\"".toList ++ (dec v ++ "\"];".toList)) :=
    readNat_dec i (by intro c hc; simp at hc; subst hc; decide)
  unfold readGvLabel readGvArc
  simp only [List.append_assoc]
  rw [hr]
  simp only [Option.bind_eq_bind, Option.bind_some]
  rw [readLit_append]
  have : readLit " -> " (" [label=\"".toList ++ (dec v ++ "\"];".toList)) = none := by simp [readLit, List.isPrefixOf]
  rw [this]
  refine ⟨?_, rfl⟩
  simp only [Option.bind_some]
  have hd : ∀ (c : Char) (l : List Char), c.isDigit = false → dec v ++ "\"];".toList ≠ c :: l := by
    intro c l hc e
    cases hv : dec v with
    | nil => exact dec_ne_nil v hv
    | cons d ds =>
      rw [hv] at e
      simp at e
      have := dec_digits v d (by rw [hv]; simp)
      rw [e.1, hc] at this
      cases this
  rw [if_neg (by simpa using hd 't' "op\"];".toList (by decide)), if_neg (by simpa using hd 'b' "ot\"];".toList (by decide))]
  rw [readNat_dec v (by intro c hc; simp at hc; subst hc; decide)]
  simp

theorem holds_gvLabel {e : Instr} (i : Nat) (h : e.isTerm = true ∧ (e.index = cBot ∨ e.index = cTop) ∨ e.isTerm = false ∧ e.Inner) :
    GvSays (gvLabel e i) [(i, e.label)] [] := by
  have hne : cTop ≠ cBot := by decide
  unfold gvLabel Instr.label
  rcases h with ⟨ht, h | h⟩ | ⟨ht, h⟩
  · have h1 : e.isTop = false := by simp [Instr.isTop, h]; exact fun e => hne e.symm
    have h2 : e.isBot = true := by simp [Instr.isBot, h]
    simp only [ht, h1, h2, Bool.false_eq_true, if_false, if_true, h]
    have := GvSays.line (t := dec i ++ " [label=\"bot\"];\n".toList) (dec i ++ " [label=\"".toList ++ "bot\"];".toList)
      (by simp only [List.append_assoc]; rfl) (by simp [not_newline_dec])
    rw [(holds_label i "bot\"];" .bot (by decide) (Or.inr ⟨rfl, rfl⟩)).1, (holds_label i "bot\"];" .bot (by decide) (Or.inr ⟨rfl, rfl⟩)).2] at this
    exact this
  · have h1 : e.isTop = true := by simp [Instr.isTop, h]
    simp only [ht, h1, if_true, h, hne, if_false]
    have := GvSays.line (t := dec i ++ " [label=\"top\"];\n".toList) (dec i ++ " [label=\"".toList ++ "top\"];".toList)
      (by simp only [List.append_assoc]; rfl) (by simp [not_newline_dec])
    rw [(holds_label i "top\"];" .top (by decide) (Or.inl ⟨rfl, rfl⟩)).1, (holds_label i "top\"];" .top (by decide) (Or.inl ⟨rfl, rfl⟩)).2] at this
    exact this
  · simp only [ht, Bool.false_eq_true, if_false]
    rw [if_neg h.1, if_neg h.2]
    have := GvSays.line (t := dec i ++ " [label=\"".toList ++ dec e.index ++ "\"];\n".toList) (dec i ++ " [label=\"".toList ++ dec e.index ++ "\"];".toList)
      (by simp only [List.append_assoc]; rfl) (by simp [not_newline_dec])
    rw [(holds_var i e.index).1, (holds_var i e.index).2] at this
    exact this

theorem gv_arc (i j : Nat) (w : String) (hw : ∀ c, w.toList.head? = some c → c.isDigit = false) :
    readGvLabel (dec i ++ " -> ".toList ++ dec j ++ w.toList) = none ∧
    readGvArc (dec i ++ " -> ".toList ++ dec j ++ w.toList) =
      if w.toList = ";".toList then some (i, true, j) else if w.toList = "[style=\"dashed\"];".toList then some (i, false, j) else none := by
  have hr : readNat (dec i ++ (" -> ".toList ++ (dec j ++ w.toList))) = some (i, " -> ".toList ++ (dec j ++ w.toList)) :=
    readNat_dec i (by intro c hc; simp at hc; subst hc; decide)
  unfold readGvLabel readGvArc
  simp only [List.append_assoc]
  rw [hr]
  simp only [Option.bind_eq_bind, Option.bind_some]
  rw [readLit_append]
  have : readLit " [label=\"" (" -> ".toList ++ (dec j ++ w.toList)) = none := by simp [readLit, List.isPrefixOf]
  rw [this]
  refine ⟨rfl, ?_⟩
  simp only [Option.bind_some]
  rw [readNat_dec j hw]
  rfl

theorem holds_gvArcs {e : Instr} (d0 i : Nat) :
    GvSays (gvArcs d0 e i) [] (if e.isTerm then [] else [(i, true, e.hi - d0), (i, false, e.lo - d0)]) := by
  unfold gvArcs
  split
  · exact .nil
  · have h1 := GvSays.line (t := dec i ++ " -> ".toList ++ dec (e.hi - d0) ++ ";\n".toList) (dec i ++ " -> ".toList ++ dec (e.hi - d0) ++ ";".toList)
      (by simp only [List.append_assoc]; rfl) (by simp [not_newline_dec])
    have h2 := GvSays.line (t := dec i ++ " -> ".toList ++ dec (e.lo - d0) ++ "[style=\"dashed\"];\n".toList)
      (dec i ++ " -> ".toList ++ dec (e.lo - d0) ++ "[style=\"dashed\"];".toList)
      (by simp only [List.append_assoc]; rfl) (by simp [not_newline_dec])
    have a1 := gv_arc i (e.hi - d0) ";" (by intro c hc; simp at hc; subst hc; decide)
    have a2 := gv_arc i (e.lo - d0) "[style=\"dashed\"];" (by intro c hc; simp at hc; subst hc; decide)
    rw [a1.1, a1.2, if_pos rfl] at h1
    rw [a2.1, a2.2, if_neg (by decide), if_pos rfl] at h2
    exact h1.append h2

theorem holds_gvInvis (l : List (Instr × Nat)) : ∀ vs, GvSays (gvInvis l vs) [] []
  | [] => .nil
  | [_] => .nil
  | v :: w :: vs => by
    unfold gvInvis
    have h1 := GvSays.line (t := dec (gvLast l v) ++ " -> ".toList ++ dec (gvLast l w) ++ " [style=invis];\n".toList)
      (dec (gvLast l v) ++ " -> ".toList ++ dec (gvLast l w) ++ " [style=invis];".toList)
      (by simp only [List.append_assoc]; rfl) (by simp [not_newline_dec])
    have a1 := gv_arc (gvLast l v) (gvLast l w) " [style=invis];" (by intro c hc; simp at hc; subst hc; decide)
    rw [a1.1, a1.2, if_neg (by decide), if_neg (by decide)] at h1
    exact h1.append (holds_gvInvis l (w :: vs))

theorem holds_gvSubgraph (l : List (Instr × Nat)) (h : ∀ e ∈ l, e.1.isTerm = true ∧ (e.1.index = cBot ∨ e.1.index = cTop) ∨ e.1.isTerm = false ∧ e.1.Inner)
    (k : Nat) : GvSays (gvSubgraph l k) ((l.filter fun e => gvKey e.1 == k).map fun e => (e.2, e.1.label)) [] := by
  unfold gvSubgraph
  have e1 : "subgraph cluster_".toList = 's' :: "ubgraph cluster_".toList := by decide
  have e2 : " {\n".toList = " {".toList ++ ['\n'] := by decide
  have h1 : GvSays ("subgraph cluster_".toList ++ dec k ++ " {\n".toList) [] [] :=
    .other 's' ("ubgraph cluster_".toList ++ dec k ++ " {".toList) (by
      rw [e1, e2]; simp only [List.append_assoc, List.cons_append]) (by decide) (by decide) (by simp [not_newline_dec])
  have h2 : GvSays "color = blue\n".toList [] [] := .other 'c' "olor = blue".toList (by decide) (by decide) (by decide) (by decide)
  have h3 : GvSays "}\n".toList [] [] := .other '}' [] (by decide) (by decide) (by decide) (by decide)
  have h4 : GvSays (gvCluster l k) ((l.filter fun e => gvKey e.1 == k).flatMap fun e => [(e.2, e.1.label)])
      ((l.filter fun e => gvKey e.1 == k).flatMap fun _ => []) :=
    GvSays.flatMap _ fun e he => holds_gvLabel e.2 (h e (List.mem_filter.1 he).1)
  have h5 : ((l.filter fun e => gvKey e.1 == k).flatMap fun _ => ([] : List (Nat × Bool × Nat))) = [] := by
    rw [List.flatMap_eq_nil_iff]; exact fun _ _ => rfl
  rw [h5, ← List.map_eq_flatMap] at h4
  have := ((h1.append h4).append h2).append h3
  rw [List.nil_append, List.append_nil, List.append_nil] at this
  exact this

theorem nodup_dedup : ∀ (n : Nat) (l : List Nat), l.length ≤ n → l.eraseDups.Nodup
  | _, [], _ => by simp
  | 0, _ :: _, h => by simp at h
  | n + 1, a :: l, h => by
    rw [List.eraseDups_cons, List.nodup_cons]
    refine ⟨?_, nodup_dedup n _ ?_⟩
    · rw [List.mem_eraseDups]; simp
    · have := List.length_filter_le (fun b => !b == a) l
      simp at h; omega

theorem perm_clusters {l : List (Instr × Nat)} : ∀ (K : List Nat), K.Nodup →
    (K.flatMap fun k => l.filter fun e => gvKey e.1 == k).Perm (l.filter fun e => K.contains (gvKey e.1))
  | [], _ => by simp
  | k :: K, h => by
    rw [List.nodup_cons] at h
    simp only [List.flatMap_cons]
    have h1 := List.filter_append_perm (fun e : Instr × Nat => gvKey e.1 == k) (l.filter fun e => (k :: K).contains (gvKey e.1))
    refine List.Perm.trans ?_ h1
    have h2 : (l.filter fun e => (k :: K).contains (gvKey e.1)).filter (fun e => gvKey e.1 == k) = l.filter fun e => gvKey e.1 == k := by
      rw [List.filter_filter]
      refine List.filter_congr (fun e _ => ?_)
      by_cases hk : gvKey e.1 = k <;> simp [hk]
    have h3 : (l.filter fun e => (k :: K).contains (gvKey e.1)).filter (fun e => !(gvKey e.1 == k)) = l.filter fun e => K.contains (gvKey e.1) := by
      rw [List.filter_filter]
      refine List.filter_congr (fun e _ => ?_)
      by_cases hk : gvKey e.1 = k
      · simp [hk, h.1]
      · simp [hk]
    rw [h2, h3]
    exact List.Perm.append_left _ (perm_clusters K h.2)

end LBDD
