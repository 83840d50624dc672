import Mathlib.Data.List.Basic
import Verif.Model.ArrayRepr
/-! # C109: the printed form of arrays -/
namespace Gcl
set_option autoImplicit false

theorem splitNl_ne (t : List Char) : splitNl t ≠ [] := by
  cases t with
  | nil => simp [splitNl]
  | cons c t =>
    simp only [splitNl]
    split
    · simp
    · split <;> simp

theorem splitNl_line (l : List Char) (h : '\n' ∉ l) : splitNl l = [l] := by
  induction l with
  | nil => rfl
  | cons c l ih =>
    simp only [List.mem_cons, not_or] at h
    simp only [splitNl, if_neg (Ne.symm h.1), ih h.2]

theorem splitNl_append (l t : List Char) (h : '\n' ∉ l) : splitNl (l ++ '\n' :: t) = l :: splitNl t := by
  induction l with
  | nil => simp [splitNl]
  | cons c l ih =>
    simp only [List.mem_cons, not_or] at h
    simp only [List.cons_append, splitNl, if_neg (Ne.symm h.1), ih h.2]

theorem splitNl_no_newline (t l : List Char) (h : l ∈ splitNl t) : '\n' ∉ l := by
  induction t generalizing l with
  | nil => simp only [splitNl, List.mem_singleton] at h; subst h; simp
  | cons c t ih =>
    simp only [splitNl] at h
    split at h
    · rcases List.mem_cons.1 h with rfl | h
      · simp
      · exact ih l h
    · next hc =>
      cases hs : splitNl t with
      | nil => exact absurd hs (splitNl_ne t)
      | cons x xs =>
        rw [hs] at h ih
        rcases List.mem_cons.1 h with rfl | h
        · simp only [List.mem_cons, not_or]
          exact ⟨Ne.symm hc, ih x (by simp)⟩
        · exact ih l (by simp [h])

theorem joinNl_cons (l : List Char) (ls : List (List Char)) (h : ls ≠ []) :
    joinNl (l :: ls) = l ++ '\n' :: joinNl ls := by
  cases ls with
  | nil => exact absurd rfl h
  | cons a ls => rfl

theorem joinNl_splitNl (t : List Char) : joinNl (splitNl t) = t := by
  induction t with
  | nil => rfl
  | cons c t ih =>
    simp only [splitNl]
    split
    · next hc => rw [joinNl_cons _ _ (splitNl_ne t), ih, hc]; rfl
    · cases hs : splitNl t with
      | nil => exact absurd hs (splitNl_ne t)
      | cons x xs =>
        rw [hs] at ih
        simp only
        cases xs with
        | nil => simp only [joinNl] at ih ⊢; rw [ih]
        | cons y ys =>
          rw [joinNl_cons _ _ (by simp)] at ih ⊢
          rw [← ih]; rfl

theorem splitNl_joinNl_append (ls : List (List Char)) (t : List Char) (hne : ls ≠ []) (h : ∀ l ∈ ls, '\n' ∉ l)
    (ht : '\n' ∉ t) :
    ∀ u, splitNl (joinNl ls ++ t ++ '\n' :: u) = ls.dropLast ++ [ls.getLast hne ++ t] ++ splitNl u := by
  intro u
  induction ls with
  | nil => exact absurd rfl hne
  | cons l ls ih =>
    cases ls with
    | nil =>
      simp only [joinNl, List.dropLast_singleton, List.getLast_singleton, List.nil_append, List.singleton_append]
      exact splitNl_append _ _ (by simp [h l (by simp), ht])
    | cons a ls =>
      rw [joinNl_cons _ _ (by simp)]
      have := ih (by simp) (fun l hl => h l (by simp [hl]))
      simp only [List.append_assoc, List.cons_append] at this ⊢
      rw [splitNl_append _ _ (h l (by simp)), this]
      simp

/-- **C109** Data numpy prints on one line: the class name, the text and the dtype on one line. -/
theorem C109_one_line (cls text dtype : List Char) (h : '\n' ∉ text) :
    arrayRepr cls text dtype =
      cls ++ "(".toList ++ text ++ ", dtype=".toList ++ dtype ++ ")".toList := by
  unfold arrayRepr
  rw [splitNl_line _ h]
  simp

/-- **C109** Data numpy prints on several lines: the lines are `first`, `mid` and `last`.  The printed form has one
line more; its first line is the class name, an opening parenthesis and the first line; the others are the other
lines, a comma after the last, and the dtype with a closing parenthesis, all moved right by the length of the class
name and parenthesis: so the columns of the text stay aligned. -/
theorem C109_lines (cls text dtype first last : List Char) (mid : List (List Char)) (hcls : '\n' ∉ cls)
    (hd : '\n' ∉ dtype) (h : splitNl text = first :: (mid ++ [last])) :
    splitNl (arrayRepr cls text dtype) =
      (cls ++ "(".toList ++ first) ::
        ((mid ++ [last ++ ",".toList]) ++ ["dtype=".toList ++ dtype ++ ")".toList]).map
          (fun l => List.replicate (cls ++ "(".toList).length ' ' ++ l) := by
  have hl : ∀ l ∈ first :: (mid ++ [last]), '\n' ∉ l := by
    intro l hl; rw [← h] at hl; exact splitNl_no_newline _ _ hl
  unfold arrayRepr
  rw [h]
  have hne : (mid ++ [last]).isEmpty = false := by cases mid <;> rfl
  simp only [hne, Bool.false_eq_true, if_false]
  have hlen : (cls ++ "(".toList).length = cls.length + 1 := by simp
  rw [hlen]
  generalize hid : List.replicate (cls.length + 1) ' ' = idnt
  have hidn : '\n' ∉ idnt := by rw [← hid]; simp [List.mem_replicate]
  have e1 : ∀ rows : List Char, cls ++ "(".toList ++ first ++ "\n".toList ++ rows ++ ",\n".toList ++
      (idnt ++ ("dtype=".toList ++ dtype)) ++ ")".toList =
      (cls ++ "(".toList ++ first) ++ '\n' :: (rows ++ [','] ++ '\n' :: (idnt ++ ("dtype=".toList ++ dtype ++
        ")".toList))) := by
    intro rows; simp
  rw [e1, splitNl_append]
  · have hmap : (mid ++ [last]).map (fun l => idnt ++ l) ≠ [] := by simp
    rw [splitNl_joinNl_append _ _ hmap]
    · rw [splitNl_line]
      · simp
      · simp [hidn, hd]
    · intro l hl'
      obtain ⟨l0, h0, rfl⟩ := List.mem_map.1 hl'
      simp only [List.mem_append, not_or]
      exact ⟨hidn, hl l0 (List.mem_cons_of_mem _ h0)⟩
    · simp
  · simp [hcls, hl first (by simp)]

/-- No part of a text can be mistaken for the dtype. -/
theorem dtype_split (t t' d d' : List Char) (hd : '=' ∉ d) (hd' : '=' ∉ d')
    (h : t ++ ", dtype=".toList ++ d = t' ++ ", dtype=".toList ++ d') : t = t' ∧ d = d' := by
  have key : ∀ (a a' b b' : List Char), '=' ∉ b → '=' ∉ b' → a ++ '=' :: b = a' ++ '=' :: b' → a = a' ∧ b = b' := by
    intro a
    induction a with
    | nil =>
      intro a' b b' hb hb' h
      cases a' with
      | nil => simpa using h
      | cons c a' =>
        simp only [List.nil_append, List.cons_append, List.cons.injEq] at h
        rw [h.2] at hb
        simp at hb
    | cons c a ih =>
      intro a' b b' hb hb' h
      cases a' with
      | nil =>
        simp only [List.nil_append, List.cons_append, List.cons.injEq] at h
        rw [← h.2] at hb'
        simp at hb'
      | cons c' a' =>
        simp only [List.cons_append, List.cons.injEq] at h
        obtain ⟨rfl, rfl⟩ := ih a' b b' hb hb' h.2
        rw [h.1]
        exact ⟨rfl, rfl⟩
  have h' : (t ++ ", dtype".toList) ++ '=' :: d = (t' ++ ", dtype".toList) ++ '=' :: d' := by
    simpa using h
  obtain ⟨h1, h2⟩ := key _ _ _ _ hd hd' h'
  exact ⟨List.append_cancel_right h1, h2⟩

/-- A list of lines that is not one line. -/
theorem lines_cases (ls : List (List Char)) (hne : ls ≠ []) :
    (∃ l, ls = [l]) ∨ ∃ first mid last, ls = first :: (mid ++ [last]) := by
  cases ls with
  | nil => exact absurd rfl hne
  | cons a ls =>
    rcases List.eq_nil_or_concat ls with rfl | ⟨mid, last, rfl⟩
    · exact Or.inl ⟨a, rfl⟩
    · exact Or.inr ⟨a, mid, last, by simp⟩

/-- **C109** The printed form loses nothing: two objects of the same class print alike exactly if numpy prints
their data and dtypes alike. -/
theorem C109_faithful (cls text text' dtype dtype' : List Char) (hcls : '\n' ∉ cls) (hd : '\n' ∉ dtype)
    (hd' : '\n' ∉ dtype') (he : '=' ∉ dtype) (he' : '=' ∉ dtype') :
    arrayRepr cls text dtype = arrayRepr cls text' dtype' ↔ text = text' ∧ dtype = dtype' := by
  constructor
  · intro h
    have one : ∀ (t d : List Char) (l : List Char), '\n' ∉ d → splitNl t = [l] →
        t = l ∧ splitNl (arrayRepr cls t d) = [arrayRepr cls t d] := by
      intro t d l hd hl
      have ht : t = l := by have := joinNl_splitNl t; rw [hl] at this; exact this.symm
      have hn : '\n' ∉ t := by rw [ht]; exact splitNl_no_newline t l (by rw [hl]; simp)
      refine ⟨ht, splitNl_line _ ?_⟩
      rw [C109_one_line _ _ _ hn]
      simp [hcls, hn, hd]
    rcases lines_cases _ (splitNl_ne text) with ⟨l, hl⟩ | ⟨f, m, l, hl⟩ <;>
      rcases lines_cases _ (splitNl_ne text') with ⟨l', hl'⟩ | ⟨f', m', l', hl'⟩
    · obtain ⟨rfl, -⟩ := one text dtype l hd hl
      obtain ⟨rfl, -⟩ := one text' dtype' l' hd' hl'
      rw [C109_one_line _ _ _ (splitNl_no_newline text text (by rw [hl]; simp)),
        C109_one_line _ _ _ (splitNl_no_newline text' text' (by rw [hl']; simp))] at h
      have h' := List.append_cancel_right h
      simp only [List.append_assoc] at h'
      have h'' := List.append_cancel_left (List.append_cancel_left h')
      exact dtype_split _ _ _ _ he he' (by simpa using h'')
    · obtain ⟨-, h1⟩ := one text dtype l hd hl
      rw [h, C109_lines cls text' dtype' f' l' m' hcls hd' hl'] at h1
      simp at h1
    · obtain ⟨-, h1⟩ := one text' dtype' l' hd' hl'
      rw [← h, C109_lines cls text dtype f l m hcls hd hl] at h1
      simp at h1
    · have h1 := congrArg splitNl h
      rw [C109_lines cls text dtype f l m hcls hd hl, C109_lines cls text' dtype' f' l' m' hcls hd' hl'] at h1
      simp only [List.cons.injEq, List.append_cancel_left_eq] at h1
      obtain ⟨hf, h2⟩ := h1
      have h3 := List.map_injective_iff.2 (fun a b hab => List.append_cancel_left hab) h2
      obtain ⟨h4, h5⟩ := List.append_inj' h3 rfl
      obtain ⟨h6, h7⟩ := List.append_inj' h4 rfl
      simp only [List.cons.injEq, and_true] at h5 h7
      have hdd := List.append_cancel_left (List.append_cancel_right h5)
      have hll := List.append_cancel_right h7
      refine ⟨?_, hdd⟩
      rw [← joinNl_splitNl text, ← joinNl_splitNl text', hl, hl', hf, h6, hll]
  · rintro ⟨rfl, rfl⟩; rfl

-- non-vacuity: a mask on one line, a table on two
example : arrayRepr "MaskArray".toList "[ True False]".toList "bool".toList =
    "MaskArray([ True False], dtype=bool)".toList := by decide
example : arrayRepr "PdgArray".toList "[ 1\n -2]".toList "int32".toList =
    "PdgArray([ 1\n          -2],\n         dtype=int32)".toList := by decide
example : splitNl "[ 1\n -2]".toList = "[ 1".toList :: ([] ++ [" -2]".toList]) := by decide

end Gcl
