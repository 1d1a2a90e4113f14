import Verif.Model.Output
import Verif.Spec.Text
/-
Writing and reading texts.
-/
namespace Girgs.Output
open Girgs.Spec

/-! ### numbers -/

theorem showNat_digit {x : Nat} : ∀ c ∈ showNat x, c.isDigit = true := fun c h => Nat.isDigit_of_mem_toDigits (by decide) (by decide) h

theorem showNat_ne_nil (x : Nat) : showNat x ≠ [] := Nat.toDigits_ne_nil

theorem readNat_showNat (x : Nat) : readNat (showNat x) = some x := by
  unfold readNat
  rw [if_pos ⟨showNat_ne_nil x, by rw [List.all_eq_true]; exact fun c hc => showNat_digit c hc⟩]
  unfold showNat
  rw [Nat.ofDigitChars_ten_toDigits]

theorem not_dash_of_digit {c : Char} (h : c.isDigit = true) : c ≠ '-' := by rintro rfl; exact absurd h (by decide)

theorem readInt_showInt (x : Int) : readInt (showInt x) = some x := by
  unfold showInt
  split
  · rename_i h
    show (readNat (showNat x.natAbs)).map _ = some x
    rw [readNat_showNat, Option.map_some]
    congr 1
    omega
  · rename_i h
    have hr := readNat_showNat x.natAbs
    cases ht : showNat x.natAbs with
    | nil => exact absurd ht (showNat_ne_nil _)
    | cons c t =>
      have hc := showNat_digit c (by rw [ht]; exact List.mem_cons_self)
      unfold readInt
      split
      · rename_i t' heq
        cases heq
        exact absurd rfl (not_dash_of_digit hc)
      · rw [← ht, hr, Option.map_some]
        congr 1
        omega

/-- characters of a printed integer -/
theorem showInt_chars {x : Int} : ∀ c ∈ showInt x, c.isDigit = true ∨ c = '-' := by
  intro c hc
  unfold showInt at hc
  split at hc
  · rcases List.mem_cons.1 hc with h | h
    · exact Or.inr h
    · exact Or.inl (showNat_digit c h)
  · exact Or.inl (showNat_digit c hc)

theorem showInt_ne_nil (x : Int) : showInt x ≠ [] := by
  unfold showInt
  split
  · exact List.cons_ne_nil _ _
  · exact showNat_ne_nil _

/-- a printed number does not contain a given other character -/
theorem showInt_not_mem {x : Int} {d : Char} (h1 : d.isDigit = false) (h2 : d ≠ '-') : d ∉ showInt x := by
  intro h
  rcases showInt_chars d h with h' | h'
  · rw [h1] at h'; cases h'
  · exact h2 h'

theorem showNat_eq_showInt (x : Nat) : showNat x = showInt (x : Int) := by
  unfold showInt
  rw [if_neg (by omega)]
  simp

theorem fixed_not_mem {F : Type} (pr : Printer F) {p : Nat} {x : F} {d : Char} (h1 : d.isDigit = false) (h2 : d.isAlpha = false) (h3 : d ≠ '-')
    (h4 : d ≠ '.') : d ∉ pr.fixed p x := by
  intro h
  rcases pr.clean p x d h with h' | h' | h' | h'
  · rw [h1] at h'; cases h'
  · rw [h2] at h'; cases h'
  · exact h3 h'
  · exact h4 h'

/-! ### words and lines -/

/-- the separators of words -/
def sep (c : Char) : Bool := c = ' ' || c = '\t' || c = '\n'

theorem words_def (t : Text) : words t = (t.splitOnP sep).filter (· ≠ []) := rfl

theorem words_cons {w t : Text} {c : Char} (hw : ∀ x ∈ w, sep x = false) (hne : w ≠ []) (hc : sep c = true) :
    words (w ++ c :: t) = w :: words t := by
  rw [words_def, words_def, List.splitOnP_append_cons_of_forall_mem hw c hc, List.filter_cons_of_pos (by simpa using hne)]

theorem words_sep {t : Text} {c : Char} (hc : sep c = true) : words (c :: t) = words t := by
  have := List.splitOnP_append_cons_of_forall_mem (p := sep) (xs := []) (by simp) c hc t
  rw [List.nil_append] at this
  rw [words_def, words_def, this, List.filter_cons_of_neg (by simp)]

theorem words_nil : words [] = [] := by
  rw [words_def, List.splitOnP_nil]; rfl

theorem showInt_no_sep (x : Int) : ∀ c ∈ showInt x, sep c = false := by
  intro c hc
  unfold sep
  rcases showInt_chars c hc with h | h
  · have h1 : c ≠ ' ' := by rintro rfl; exact absurd h (by decide)
    have h2 : c ≠ '\t' := by rintro rfl; exact absurd h (by decide)
    have h3 : c ≠ '\n' := by rintro rfl; exact absurd h (by decide)
    simp [h1, h2, h3]
  · subst h; decide

theorem fixed_no_sep {F : Type} (pr : Printer F) (p : Nat) (x : F) : ∀ c ∈ pr.fixed p x, sep c = false := by
  intro c hc
  unfold sep
  have h1 : c ≠ ' ' := by rintro rfl; exact fixed_not_mem pr (by decide) (by decide) (by decide) (by decide) hc
  have h2 : c ≠ '\t' := by rintro rfl; exact fixed_not_mem pr (by decide) (by decide) (by decide) (by decide) hc
  have h3 : c ≠ '\n' := by rintro rfl; exact fixed_not_mem pr (by decide) (by decide) (by decide) (by decide) hc
  simp [h1, h2, h3]

theorem words_edgeLine (e : Int × Int) (t : Text) : words (edgeLine e ++ t) = showInt e.1 :: showInt e.2 :: words t := by
  unfold edgeLine
  simp only [List.append_assoc, List.cons_append, List.nil_append]
  rw [words_cons (showInt_no_sep _) (showInt_ne_nil _) (by decide)]
  rw [words_cons (showInt_no_sep _) (showInt_ne_nil _) (by decide)]

theorem words_edges (edges : List (Int × Int)) : words (edges.flatMap edgeLine) = edges.flatMap fun e => [showInt e.1, showInt e.2] := by
  induction edges with
  | nil => exact words_nil
  | cons e es ih => rw [List.flatMap_cons, words_edgeLine, ih, List.flatMap_cons]; rfl

theorem mapM_flatMap_showInt (edges : List (Int × Int)) :
    (edges.flatMap fun e => [showInt e.1, showInt e.2]).mapM readInt = some (edges.flatMap fun e => [e.1, e.2]) := by
  induction edges with
  | nil => rfl
  | cons e es ih =>
    simp only [List.flatMap_cons, List.cons_append, List.nil_append, List.mapM_cons, ih, readInt_showInt]
    rfl

theorem pairs_flatMap (edges : List (Int × Int)) : pairs (edges.flatMap fun e => [e.1, e.2]) = some edges := by
  induction edges with
  | nil => rfl
  | cons e es ih =>
    simp only [List.flatMap_cons, List.cons_append, List.nil_append, pairs, ih]
    rfl

theorem readEdgeList_text (n : Int) (edges : List (Int × Int)) : readEdgeList (edgeListText n edges) = some (n, edges) := by
  have hw : words (edgeListText n edges) = showInt n :: showInt edges.length :: edges.flatMap fun e => [showInt e.1, showInt e.2] := by
    unfold edgeListText
    simp only [List.append_assoc, List.cons_append, List.nil_append]
    rw [words_cons (showInt_no_sep _) (showInt_ne_nil _) (by decide), showNat_eq_showInt]
    rw [words_cons (showInt_no_sep _) (showInt_ne_nil _) (by decide), words_sep (by decide), words_edges]
  have hm : (words (edgeListText n edges)).mapM readInt = some (n :: (edges.length : ℤ) :: edges.flatMap fun e => [e.1, e.2]) := by
    rw [hw]
    simp only [List.mapM_cons, readInt_showInt, mapM_flatMap_showInt]
    rfl
  unfold readEdgeList
  refine (obind hm _).trans ?_
  refine (obind (pairs_flatMap edges) _).trans ?_
  rw [if_pos rfl]

/-! ### dot files -/

theorem upto_eq {c : Char} {a t : Text} (h : c ∉ a) : upto c (a ++ c :: t) = (a, c :: t) := by
  unfold upto
  have h1 : ∀ x ∈ a, (decide (x ≠ c)) = true := fun x hx => by
    rw [decide_eq_true_eq]; rintro rfl; exact h hx
  rw [List.takeWhile_append_of_pos h1, List.dropWhile_append_of_pos h1]
  rw [List.takeWhile_cons_of_neg (by simp), List.dropWhile_cons_of_neg (by simp), List.append_nil]

theorem expect_eq (s t : Text) : expect s (s ++ t) = some t := by
  unfold expect
  rw [if_pos (List.prefix_append _ _), List.drop_left]

variable {F : Type} [CFloat F]

/-- a node statement without its newline -/
def nodeStmt (pr : Printer F) (i : Nat) (w : F) (x : List F) : Text :=
  ['\t'] ++ (showNat i ++ (" [label=\"".toList ++ (pr.fixed 2 w ++ ("\", pos=\"".toList ++ (dotCoords pr true x ++ "\"];".toList)))))

theorem dotNode_eq (pr : Printer F) (i : Nat) (w : F) (x : List F) : dotNode pr i w x = nodeStmt pr i w x ++ ['\n'] := by
  unfold dotNode nodeStmt
  simp only [List.append_assoc]
  rfl

theorem dotCoords_false (pr : Printer F) (xs : List F) : dotCoords pr false xs = (xs.flatMap fun x => ',' :: pr.fixed 6 x) := by
  induction xs with
  | nil => rfl
  | cons x xs ih => rw [dotCoords, ih, List.flatMap_cons]; rfl

theorem dotCoords_eq (pr : Printer F) (xs : List F) : dotCoords pr true xs = List.intercalate [','] (xs.map (pr.fixed 6)) := by
  cases xs with
  | nil => rfl
  | cons x xs =>
    rw [dotCoords, dotCoords_false]
    simp only [if_true, List.nil_append, List.map_cons]
    induction xs generalizing x with
    | nil => simp
    | cons y ys ih =>
      rw [List.flatMap_cons, List.map_cons, List.intercalate_cons_cons, ← ih y]
      simp

theorem dotCoords_chars (pr : Printer F) {d : Char} (hd : ∀ p x, d ∉ pr.fixed p x) (hc : d ≠ ',') (first : Bool) (xs : List F) :
    d ∉ dotCoords pr first xs := by
  induction xs generalizing first with
  | nil => simp [dotCoords]
  | cons x xs ih =>
    rw [dotCoords]
    cases first <;> simp [hd 6 x, ih, hc]

theorem dotCoords_read (pr : Printer F) (xs : List F) :
    (if dotCoords pr true xs = [] then [] else (dotCoords pr true xs).splitOn ',') = xs.map (pr.fixed 6) := by
  cases xs with
  | nil => simp [dotCoords]
  | cons x xs =>
    have hne : dotCoords pr true (x :: xs) ≠ [] := by
      rw [dotCoords]
      have := pr.nonempty 6 x
      simp [this]
    rw [if_neg hne, dotCoords_eq, List.splitOn_intercalate]
    · intro l hl
      obtain ⟨y, _, rfl⟩ := List.mem_map.1 hl
      exact fixed_not_mem pr (by decide) (by decide) (by decide) (by decide)
    · simp

theorem readNode_stmt (pr : Printer F) (i : Nat) (w : F) (x : List F) :
    readNode (nodeStmt pr i w x) = some ((i : ℤ), pr.fixed 2 w, x.map (pr.fixed 6)) := by
  unfold readNode nodeStmt
  refine (obind (expect_eq _ _) _).trans ?_
  have h1 : ' ' ∉ showNat i := by rw [showNat_eq_showInt]; exact showInt_not_mem (by decide) (by decide)
  have e1 : upto ' ' (showNat i ++ (" [label=\"".toList ++ (pr.fixed 2 w ++ ("\", pos=\"".toList ++ (dotCoords pr true x ++ "\"];".toList))))) =
      (showNat i, " [label=\"".toList ++ (pr.fixed 2 w ++ ("\", pos=\"".toList ++ (dotCoords pr true x ++ "\"];".toList)))) := upto_eq h1
  simp only [e1]
  refine (obind (show readInt (showNat i) = some (i : ℤ) by rw [showNat_eq_showInt, readInt_showInt]) _).trans ?_
  refine (obind (expect_eq _ _) _).trans ?_
  have h2 : ∀ p y, '"' ∉ pr.fixed p y := fun p y => fixed_not_mem pr (by decide) (by decide) (by decide) (by decide)
  have e2 : upto '"' (pr.fixed 2 w ++ ("\", pos=\"".toList ++ (dotCoords pr true x ++ "\"];".toList))) =
      (pr.fixed 2 w, "\", pos=\"".toList ++ (dotCoords pr true x ++ "\"];".toList)) := upto_eq (h2 _ _)
  simp only [e2]
  refine (obind (expect_eq _ _) _).trans ?_
  have e3 : upto '"' (dotCoords pr true x ++ "\"];".toList) = (dotCoords pr true x, "\"];".toList) :=
    upto_eq (dotCoords_chars pr h2 (by decide) _ _)
  simp only [e3]
  refine (obind (show expect "\"];".toList "\"];".toList = some [] by decide) _).trans ?_
  rw [if_pos rfl, dotCoords_read]

theorem nodeStmt_lines (pr : Printer F) (i : Nat) (w : F) (x : List F) : '\n' ∉ nodeStmt pr i w x ∧ nodeStmt pr i w x ≠ [] := by
  refine ⟨?_, by simp [nodeStmt]⟩
  unfold nodeStmt
  have h1 : '\n' ∉ showNat i := by rw [showNat_eq_showInt]; exact showInt_not_mem (by decide) (by decide)
  have h2 : ∀ p y, '\n' ∉ pr.fixed p y := fun p y => fixed_not_mem pr (by decide) (by decide) (by decide) (by decide)
  have h3 := dotCoords_chars pr h2 (by decide) true x
  simp [h1, h2, h3]

/-- an edge statement without its newline -/
def edgeStmt (e : Int × Int) : Text := ['\t'] ++ (showInt e.1 ++ ("\t-- ".toList ++ (showInt e.2 ++ ";".toList)))

theorem dotEdge_eq (e : Int × Int) : dotEdge e = edgeStmt e ++ ['\n'] := by
  unfold dotEdge edgeStmt
  simp only [List.append_assoc]
  rfl

theorem readDotEdge_stmt (e : Int × Int) : readDotEdge (edgeStmt e) = some e := by
  unfold readDotEdge edgeStmt
  refine (obind (expect_eq _ _) _).trans ?_
  have e1 : upto '\t' (showInt e.1 ++ ("\t-- ".toList ++ (showInt e.2 ++ ";".toList))) = (showInt e.1, "\t-- ".toList ++ (showInt e.2 ++ ";".toList)) :=
    upto_eq (showInt_not_mem (by decide) (by decide))
  simp only [e1]
  refine (obind (readInt_showInt _) _).trans ?_
  refine (obind (expect_eq _ _) _).trans ?_
  have e2 : upto ';' (showInt e.2 ++ ";".toList) = (showInt e.2, [';']) := upto_eq (showInt_not_mem (by decide) (by decide))
  simp only [e2]
  refine (obind (readInt_showInt _) _).trans ?_
  rw [if_pos trivial]

theorem edgeStmt_lines (e : Int × Int) : '\n' ∉ edgeStmt e := by
  have h1 : ∀ x, '\n' ∉ showInt x := fun x => showInt_not_mem (by decide) (by decide)
  unfold edgeStmt
  simp [h1]

theorem linesOf_cons {l t : Text} (h : '\n' ∉ l) : linesOf (l ++ '\n' :: t) = l :: linesOf t := by
  unfold linesOf
  exact List.splitOn_append_cons_self_of_not_mem h _

theorem linesOf_flatMap {α : Type} (f : α → Text) (hf : ∀ a, '\n' ∉ f a) (l : List α) (t : Text) :
    linesOf (l.flatMap (fun a => f a ++ ['\n']) ++ t) = l.map f ++ linesOf t := by
  induction l with
  | nil => rfl
  | cons a l ih =>
    rw [List.flatMap_cons, List.map_cons, List.cons_append, ← ih, ← linesOf_cons (hf a)]
    simp

theorem dotNodes_eq (pr : Printer F) (weights : List F) (positions : List (List F)) (h : weights.length ≤ positions.length) (is : List Nat)
    (his : ∀ i ∈ is, i < weights.length) :
    dotNodes pr weights positions is =
      some (is.flatMap fun i => nodeStmt pr i (weights.getD i (CFloat.ofRat 0)) (positions.getD i []) ++ ['\n']) := by
  induction is with
  | nil => rfl
  | cons i is ih =>
    have hi := his i List.mem_cons_self
    rw [dotNodes]
    have e1 : rd weights i = some (weights.getD i (CFloat.ofRat 0)) := by
      unfold rd; rw [List.getD_eq_getElem?_getD, List.getElem?_eq_getElem hi]; rfl
    have e2 : rd positions i = some (positions.getD i []) := by
      unfold rd; rw [List.getD_eq_getElem?_getD, List.getElem?_eq_getElem (by omega)]; rfl
    refine (obind e1 _).trans ((obind e2 _).trans ((obind (ih fun j hj => his j (List.mem_cons_of_mem _ hj)) _).trans ?_))
    rw [dotNode_eq, List.flatMap_cons]

theorem dotNodes_short (pr : Printer F) (weights : List F) (positions : List (List F)) (is : List Nat) {i : Nat} (hi : i ∈ is)
    (h : positions.length ≤ i) : dotNodes pr weights positions is = none := by
  induction is with
  | nil => cases hi
  | cons j is ih =>
    rw [dotNodes]
    rcases List.mem_cons.1 hi with rfl | hi
    · have e : rd positions i = none := by unfold rd; exact List.getElem?_eq_none h
      rw [e]
      cases rd weights i <;> rfl
    · rw [ih hi]
      cases rd weights j <;> cases rd positions j <;> rfl

theorem mapM_some {α β : Type} (f : α → Option β) (g : α → β) (l : List α) (h : ∀ a ∈ l, f a = some (g a)) : l.mapM f = some (l.map g) := by
  induction l with
  | nil => rfl
  | cons a l ih =>
    rw [List.mapM_cons]
    refine (obind (h a List.mem_cons_self) _).trans ((obind (ih fun b hb => h b (List.mem_cons_of_mem _ hb)) _).trans ?_)
    rfl

theorem mapM_map {α β γ : Type} (f : β → Option γ) (g : α → β) (k : α → γ) (l : List α) (h : ∀ a ∈ l, f (g a) = some (k a)) :
    (l.map g).mapM f = some (l.map k) := by
  induction l with
  | nil => rfl
  | cons a l ih =>
    rw [List.map_cons, List.mapM_cons]
    refine (obind (h a List.mem_cons_self) _).trans ((obind (ih fun b hb => h b (List.mem_cons_of_mem _ hb)) _).trans ?_)
    rfl

/-- reading back a written dot file -/
theorem readDot_saveDot (pr : Printer F) (weights : List F) (positions : List (List F)) (graph : List (Int × Int))
    (h : weights.length ≤ positions.length) (hsz : weights.length < 2147483648) :
    ∃ t, saveDot pr true weights positions graph = some (.written t) ∧
      readDot t = some ⟨(List.range weights.length).map fun i : ℕ => ((i : ℤ), pr.fixed 2 (weights.getD i (CFloat.ofRat 0)),
        (positions.getD i []).map (pr.fixed 6)), graph⟩ := by
  have hn := dotNodes_eq pr weights positions h (List.range weights.length) (fun i hi => List.mem_range.1 hi)
  refine ⟨"graph girg {\n\toverlap=scale;\n\n".toList ++
      (List.range weights.length).flatMap (fun i => nodeStmt pr i (weights.getD i (CFloat.ofRat 0)) (positions.getD i []) ++ ['\n']) ++ ['\n'] ++
      graph.flatMap dotEdge ++ "}\n".toList, ?_, ?_⟩
  · unfold saveDot
    rw [if_pos rfl, if_pos hsz]
    refine (obind hn _).trans ?_
    rfl
  set stmts := fun i => nodeStmt pr i (weights.getD i (CFloat.ofRat 0)) (positions.getD i []) with hst
  have hl : linesOf ("graph girg {\n\toverlap=scale;\n\n".toList ++
      (List.range weights.length).flatMap (fun i => nodeStmt pr i (weights.getD i (CFloat.ofRat 0)) (positions.getD i []) ++ ['\n']) ++ ['\n'] ++
      graph.flatMap dotEdge ++ "}\n".toList) =
      "graph girg {".toList :: "\toverlap=scale;".toList :: [] :: ((List.range weights.length).map stmts ++ [] :: (graph.map edgeStmt ++ ["}".toList, []])) := by
    have e0 : "graph girg {\n\toverlap=scale;\n\n".toList = "graph girg {".toList ++ '\n' :: ("\toverlap=scale;".toList ++ '\n' :: ([] ++ '\n' :: [])) := by decide
    rw [e0]
    simp only [List.append_assoc, List.cons_append, List.nil_append]
    rw [linesOf_cons (by decide), linesOf_cons (by decide)]
    congr 2
    have e1 : ∀ t : Text, linesOf ('\n' :: t) = [] :: linesOf t := fun t => by
      have := linesOf_cons (l := []) (t := t) (by simp)
      simpa using this
    rw [e1]
    congr 1
    rw [linesOf_flatMap stmts (fun i => (nodeStmt_lines pr _ _ _).1), e1]
    congr 2
    have e2 : graph.flatMap dotEdge = graph.flatMap fun e => edgeStmt e ++ ['\n'] := by
      congr 1; funext e; exact dotEdge_eq e
    rw [e2, linesOf_flatMap edgeStmt edgeStmt_lines]
    congr 1
  unfold readDot
  rw [hl]
  simp only
  rw [if_pos (by simp)]
  have hall : ∀ l ∈ (List.range weights.length).map stmts, decide (l ≠ []) = true := by
    intro l hl
    obtain ⟨i, _, rfl⟩ := List.mem_map.1 hl
    simpa using (nodeStmt_lines pr i _ _).2
  rw [List.takeWhile_append_of_pos hall, List.dropWhile_append_of_pos hall, List.takeWhile_cons_of_neg (by simp), List.dropWhile_cons_of_neg (by simp),
    List.append_nil]
  refine (obind (mapM_map readNode stmts (fun i : ℕ => ((i : ℤ), pr.fixed 2 (weights.getD i (CFloat.ofRat 0)), (positions.getD i []).map (pr.fixed 6)))
    _ (fun i _ => readNode_stmt pr i _ _)) _).trans ?_
  simp only
  have hlen : (graph.map edgeStmt ++ ["}".toList, []]).length - 2 = (graph.map edgeStmt).length := by simp
  rw [hlen, List.drop_left, List.take_left, if_pos rfl]
  refine (obind (mapM_map readDotEdge edgeStmt id graph (fun e _ => readDotEdge_stmt e)) _).trans ?_
  rw [List.map_id]

/-! ### coordinate files -/

theorem coordLines_eq (pr : Printer F) (radii angles : List F) (is : List Nat) (h1 : ∀ i ∈ is, i < radii.length) (h2 : ∀ i ∈ is, i < angles.length) :
    coordLines pr radii angles is = some (is.flatMap fun i => coordLine pr (radii.getD i (CFloat.ofRat 0)) (angles.getD i (CFloat.ofRat 0))) := by
  induction is with
  | nil => rfl
  | cons i is ih =>
    rw [coordLines]
    have e1 : rd radii i = some (radii.getD i (CFloat.ofRat 0)) := by
      unfold rd; rw [List.getD_eq_getElem?_getD, List.getElem?_eq_getElem (h1 i List.mem_cons_self)]; rfl
    have e2 : rd angles i = some (angles.getD i (CFloat.ofRat 0)) := by
      unfold rd; rw [List.getD_eq_getElem?_getD, List.getElem?_eq_getElem (h2 i List.mem_cons_self)]; rfl
    refine (obind e1 _).trans ((obind e2 _).trans ((obind (ih (fun j hj => h1 j (List.mem_cons_of_mem _ hj)) fun j hj => h2 j (List.mem_cons_of_mem _ hj)) _).trans ?_))
    rw [List.flatMap_cons]

/-- a coordinate line without its newline -/
def coordStmt (pr : Printer F) (r a : F) : Text := pr.fixed 17 r ++ (' ' :: pr.fixed 17 a)

theorem coordLine_eq (pr : Printer F) (r a : F) : coordLine pr r a = coordStmt pr r a ++ ['\n'] := by
  unfold coordLine coordStmt; simp

theorem coordStmt_lines (pr : Printer F) (r a : F) : '\n' ∉ coordStmt pr r a := by
  have h2 : ∀ p y, '\n' ∉ pr.fixed p y := fun p y => fixed_not_mem pr (by decide) (by decide) (by decide) (by decide)
  unfold coordStmt
  simp [h2]

theorem words_coordStmt (pr : Printer F) (r a : F) : words (coordStmt pr r a) = [pr.fixed 17 r, pr.fixed 17 a] := by
  unfold coordStmt
  rw [words_cons (fixed_no_sep pr _ _) (pr.nonempty _ _) (by decide)]
  have : words (pr.fixed 17 a) = [pr.fixed 17 a] := by
    rw [words_def, List.splitOnP_eq_singleton (fixed_no_sep pr _ _)]
    rw [List.filter_cons_of_pos (by simpa using pr.nonempty _ _)]
    rfl
  rw [this]

end Girgs.Output
