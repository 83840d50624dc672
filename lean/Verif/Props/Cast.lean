import Verif.Spec.Cast
import Verif.Props.Convert
import Verif.Props.Pdg
/-! # C121: what the constructors store -/
namespace Gcl
set_option autoImplicit false
open Spec

theorem wrapInt_fits {bits : Nat} (hb : 0 < bits) (z : Int) :
    -2 ^ (bits - 1) ≤ wrapInt bits z ∧ wrapInt bits z < 2 ^ (bits - 1) := by
  obtain ⟨k, rfl⟩ : ∃ k, bits = k + 1 := ⟨bits - 1, by omega⟩
  simp only [wrapInt, Nat.add_sub_cancel]
  have hp : (0 : Int) < 2 ^ (k + 1) := by positivity
  have h1 := Int.emod_nonneg (z + 2 ^ k) hp.ne'
  have h2 := Int.emod_lt_of_pos (z + 2 ^ k) hp
  rw [pow_succ] at h2
  rw [pow_succ] at h1 ⊢
  omega

theorem wrapInt_congr {bits : Nat} (z : Int) : ∃ q : Int, z = wrapInt bits z + q * 2 ^ bits := by
  refine ⟨(z + 2 ^ (bits - 1)) / 2 ^ bits, ?_⟩
  unfold wrapInt
  have := Int.emod_add_mul_ediv (z + 2 ^ (bits - 1)) (2 ^ bits)
  linarith

theorem wrapInt_id {bits : Nat} (hb : 0 < bits) {z : Int} (h1 : -2 ^ (bits - 1) ≤ z) (h2 : z < 2 ^ (bits - 1)) :
    wrapInt bits z = z := by
  obtain ⟨k, rfl⟩ : ∃ k, bits = k + 1 := ⟨bits - 1, by omega⟩
  simp only [wrapInt, Nat.add_sub_cancel] at *
  rw [Int.emod_eq_of_lt (by omega) (by rw [pow_succ]; omega)]
  omega

private theorem truncReal_unique {x : ℝ} {n : Int} (h1 : |(n : ℝ)| ≤ |x|) (h2 : |x - n| < 1) (h3 : 0 ≤ x * n) :
    truncReal x = n := by
  unfold truncReal
  obtain ⟨l, u⟩ := abs_lt.1 h2
  split
  · rename_i hx
    rw [abs_of_nonneg hx] at h1
    have := le_abs_self (n : ℝ)
    exact Int.floor_eq_iff.2 ⟨by linarith, by linarith⟩
  · rename_i hx
    rw [not_le] at hx
    rw [abs_of_neg hx] at h1
    have := neg_abs_le (n : ℝ)
    exact Int.ceil_eq_iff.2 ⟨by linarith, by linarith⟩

private theorem castInt_bounds (p : Platform) (bits : Nat) (h1 : 1 < bits)
    (hj : ∀ x, -2 ^ (bits - 1) ≤ p.junk bits x ∧ p.junk bits x < 2 ^ (bits - 1)) (v : Elem) :
    -2 ^ (bits - 1) ≤ castInt p bits v ∧ castInt p bits v < 2 ^ (bits - 1) := by
  have hpow : (2 : Int) ≤ 2 ^ (bits - 1) := by
    calc (2 : Int) = 2 ^ 1 := by norm_num
      _ ≤ 2 ^ (bits - 1) := pow_le_pow_right₀ (by norm_num) (by omega)
  match v with
  | .bool true => simp only [castInt, if_true]; omega
  | .bool false => simp only [castInt, Bool.false_eq_true, if_false]; omega
  | .int z => exact wrapInt_fits (by omega) z
  | .flt (.fin x) =>
    simp only [castInt]
    split
    · assumption
    · exact hj _
  | .flt .nan => exact hj _
  | .flt .pinf => exact hj _
  | .flt .ninf => exact hj _

theorem cast_ofType (p : Platform) (hp : Sane p) (dt : DType) (v : Elem) : OfType dt (castVal p dt v) := by
  have k16 := castInt_bounds p 16 (by norm_num) (fun x => by have := hp.1 x; norm_num; omega) v
  have k32 := castInt_bounds p 32 (by norm_num) (fun x => by have := hp.2.1 x; norm_num; omega) v
  norm_num at k16 k32
  cases dt with
  | bool =>
    match v with
    | .bool _ => trivial
    | .int _ => trivial
    | .flt (.fin _) => trivial
    | .flt .nan => trivial
    | .flt .pinf => trivial
    | .flt .ninf => trivial
  | i2 => simp only [castVal, OfType]; omega
  | i4 => simp only [castVal, OfType]; omega
  | f8 =>
    match v with
    | .bool _ => trivial
    | .int _ => trivial
    | .flt _ => trivial

theorem cast_id (p : Platform) (dt : DType) (v : Elem) (h : OfType dt v) : castVal p dt v = v := by
  match dt, v with
  | .bool, .bool _ => rfl
  | .bool, .int _ => exact h.elim
  | .bool, .flt _ => exact h.elim
  | .i2, .int z =>
    have h : -32768 ≤ z ∧ z ≤ 32767 := h
    have := wrapInt_id (bits := 16) (z := z) (by norm_num) (by norm_num; omega) (by norm_num; omega)
    simp only [castVal, castInt, this]
  | .i4, .int z =>
    have h : -2147483648 ≤ z ∧ z ≤ 2147483647 := h
    have := wrapInt_id (bits := 32) (z := z) (by norm_num) (by norm_num; omega) (by norm_num; omega)
    simp only [castVal, castInt, this]
  | .i2, .bool _ => exact h.elim
  | .i2, .flt _ => exact h.elim
  | .i4, .bool _ => exact h.elim
  | .i4, .flt _ => exact h.elim
  | .f8, .flt _ => rfl
  | .f8, .bool _ => exact h.elim
  | .f8, .int _ => exact h.elim

theorem cast_stored (p : Platform) (hp : Sane p) (dt : DType) (v : Elem) : StoredAs dt v (castVal p dt v) where
  ofType := cast_ofType p hp dt v
  kept := cast_id p dt v
  boolInt := by rintro b (rfl | rfl) rfl <;> rfl
  boolFlt := by rintro b rfl rfl; rfl
  truthInt := by rintro z rfl rfl; simp [castVal]
  truthFlt := by
    rintro x rfl rfl
    cases x <;> simp [castVal]
  int16 := by
    rintro z rfl rfl
    obtain ⟨q, hq⟩ := wrapInt_congr (bits := 16) z
    exact ⟨_, q, rfl, by norm_num at hq; exact hq⟩
  int32 := by
    rintro z rfl rfl
    obtain ⟨q, hq⟩ := wrapInt_congr (bits := 32) z
    exact ⟨_, q, rfl, by norm_num at hq; exact hq⟩
  fraction := by
    rintro x n (rfl | rfl) rfl hty ⟨h1, h2, h3⟩
    · have hty : -32768 ≤ n ∧ n ≤ 32767 := hty
      simp only [castVal, castInt, truncReal_unique h1 h2 h3]
      rw [if_pos (by norm_num; omega)]
    · have hty : -2147483648 ≤ n ∧ n ≤ 2147483647 := hty
      simp only [castVal, castInt, truncReal_unique h1 h2 h3]
      rw [if_pos (by norm_num; omega)]
  double := by
    rintro z rfl rfl hz
    simp only [castVal, hp.2.2 z hz]

/-- Construction looks at shapes, not at elements. -/
theorem construct_map {α β : Type} (f : α → β) (k : Kind) (a : Nd α) :
    construct k ⟨a.shape, a.flat.map f⟩ =
      match construct k a with
      | .ok b => .ok ⟨b.shape, b.flat.map f⟩
      | .error e => .error e := by
  obtain ⟨sh, fl⟩ := a
  unfold construct convertNd
  simp only [List.length_map]
  by_cases h : (isFlat sh && k.cols == 1) = true
  · simp only [h, if_true]
    cases k <;> simp
  · simp only [h, Bool.false_eq_true, if_false]
    cases sh with
    | nil => rfl
    | cons n rest =>
      simp only
      generalize (if isFlat (n :: rest) = true then n else rest.headD 0) = cols
      by_cases h2 : n ≠ 0 ∧ cols ≠ k.cols
      · simp only [if_pos h2]
      · simp only [if_neg h2]
        cases k <;> simp

theorem chunks_map {α β : Type} (f : α → β) (k : Nat) : ∀ (n : Nat) (l : List α),
    chunks k n (l.map f) = (chunks k n l).map (List.map f)
  | 0, _ => rfl
  | n + 1, l => by
    simp only [chunks, List.map_cons, List.map_take, ← List.map_drop, chunks_map f k n]

theorem records_map {α β : Type} (f : α → β) (k : Kind) (b : Nd α) :
    records k ⟨b.shape, b.flat.map f⟩ = (records k b).map (List.map f) := by
  simp only [records, List.length_map, chunks_map]

/-- **C121** (what is stored): a constructor fails exactly when the shape of the array does not fit (`construct`, C15),
whatever the elements are; otherwise it stores, record by record and component by component, what `StoredAs` says of the
element type of the class: booleans for masks, 32-bit integers for PDG codes, colours and edges, 16-bit integers for
statuses and helicities, doubles for momenta. -/
theorem C121_stored (p : Platform) (hp : Sane p) (c : Cls) (a : Nd Elem) :
    (∀ e, newArray p c a = .error e ↔ construct c.kind a = .error e) ∧
    ∀ b, construct c.kind a = .ok b → ∃ s, newArray p c a = .ok s ∧ s.shape = b.shape ∧
      List.Forall₂ (List.Forall₂ (StoredAs c.dtype)) (records c.kind b) (records c.kind s) := by
  unfold newArray
  rw [construct_map]
  constructor
  · intro e
    cases construct c.kind a <;> simp
  · intro b hb
    rw [hb]
    refine ⟨_, rfl, rfl, ?_⟩
    rw [records_map, List.forall₂_map_right_iff, List.forall₂_same]
    intro r _
    rw [List.forall₂_map_right_iff, List.forall₂_same]
    exact fun v _ => cast_stored p hp c.dtype v

/-- **C121** (values of the type are kept): if the elements already are of the class's type, they are stored as they
are; in particular constructing an array from the contents of one of the same class gives the same contents. -/
theorem C121_kept (p : Platform) (c : Cls) (a : Nd Elem) :
    ((∀ v ∈ a.flat, OfType c.dtype v) → newArray p c a = construct c.kind a) ∧
    (Sane p → ∀ b, newArray p c a = .ok b → newArray p c b = construct c.kind b) := by
  have key : ∀ a : Nd Elem, (∀ v ∈ a.flat, OfType c.dtype v) → newArray p c a = construct c.kind a := by
    intro a h
    unfold newArray
    rw [List.map_congr_left (fun v hv => cast_id p c.dtype v (h v hv)), List.map_id']
  refine ⟨key a, fun hp b hb => key b ?_⟩
  unfold newArray at hb
  rw [construct_map] at hb
  cases h : construct c.kind a with
  | error e => rw [h] at hb; cases hb
  | ok b0 =>
    rw [h] at hb
    cases hb
    intro v hv
    obtain ⟨v0, -, rfl⟩ := List.mem_map.1 hv
    exact cast_ofType p hp _ v0

/-- **C121** (integers): an integer is stored unchanged exactly when it lies within the bounds of the type, and two
integers become the same exactly when they differ by a multiple of its size. -/
theorem C121_integers (p : Platform) (z z' : Int) :
    (castVal p .i2 (.int z) = .int z ↔ -32768 ≤ z ∧ z ≤ 32767) ∧
    (castVal p .i4 (.int z) = .int z ↔ -2147483648 ≤ z ∧ z ≤ 2147483647) ∧
    (castVal p .i2 (.int z) = castVal p .i2 (.int z') ↔ ∃ q, z = z' + q * 65536) ∧
    (castVal p .i4 (.int z) = castVal p .i4 (.int z') ↔ ∃ q, z = z' + q * 4294967296) := by
  have f16 := fun z => wrapInt_fits (bits := 16) (by norm_num) z
  have f32 := fun z => wrapInt_fits (bits := 32) (by norm_num) z
  norm_num at f16 f32
  have c16 := fun z => wrapInt_congr (bits := 16) z
  have c32 := fun z => wrapInt_congr (bits := 32) z
  norm_num at c16 c32
  simp only [castVal, castInt, Elem.int.injEq]
  refine ⟨⟨fun h => ?_, fun h => ?_⟩, ⟨fun h => ?_, fun h => ?_⟩, ⟨fun h => ?_, ?_⟩, ⟨fun h => ?_, ?_⟩⟩
  · have := f16 z; omega
  · exact wrapInt_id (by norm_num) (by norm_num; omega) (by norm_num; omega)
  · have := f32 z; omega
  · exact wrapInt_id (by norm_num) (by norm_num; omega) (by norm_num; omega)
  · obtain ⟨q, hq⟩ := c16 z
    obtain ⟨q', hq'⟩ := c16 z'
    exact ⟨q - q', by rw [h] at hq; linarith⟩
  · rintro ⟨q, rfl⟩
    obtain ⟨q1, h1⟩ := c16 (z' + q * 65536)
    obtain ⟨q2, h2⟩ := c16 z'
    have := f16 (z' + q * 65536)
    have := f16 z'
    omega
  · obtain ⟨q, hq⟩ := c32 z
    obtain ⟨q', hq'⟩ := c32 z'
    exact ⟨q - q', by rw [h] at hq; linarith⟩
  · rintro ⟨q, rfl⟩
    obtain ⟨q1, h1⟩ := c32 (z' + q * 4294967296)
    obtain ⟨q2, h2⟩ := c32 z'
    have := f32 (z' + q * 4294967296)
    have := f32 z'
    omega

/-- **C121** (which class has which type): what the constructor of each class makes of an array of integers. PDG codes, colours and
vertices of edges are kept exactly within 32 bits, helicities and statuses within 16 bits; a mask becomes true where the integer
is not zero, momenta become doubles. -/
theorem C121_classes (p : Platform) (hp : Sane p) (x y z w : Int) :
    (newArray p .pdg ⟨[1], [.int z]⟩ = .ok ⟨[1], [.int z]⟩ ↔ -2147483648 ≤ z ∧ z ≤ 2147483647) ∧
    (newArray p .color ⟨[1, 2], [.int z, .int w]⟩ = .ok ⟨[1, 2], [.int z, .int w]⟩ ↔
      (-2147483648 ≤ z ∧ z ≤ 2147483647) ∧ (-2147483648 ≤ w ∧ w ≤ 2147483647)) ∧
    (newArray p .edges ⟨[1, 2], [.int z, .int w]⟩ = .ok ⟨[1, 2], [.int z, .int w]⟩ ↔
      (-2147483648 ≤ z ∧ z ≤ 2147483647) ∧ (-2147483648 ≤ w ∧ w ≤ 2147483647)) ∧
    (newArray p .helicity ⟨[1], [.int z]⟩ = .ok ⟨[1], [.int z]⟩ ↔ -32768 ≤ z ∧ z ≤ 32767) ∧
    (newArray p .status ⟨[1], [.int z]⟩ = .ok ⟨[1], [.int z]⟩ ↔ -32768 ≤ z ∧ z ≤ 32767) ∧
    newArray p .mask ⟨[1], [.int z]⟩ = .ok ⟨[1], [.bool (decide (z ≠ 0))]⟩ ∧
    (|x| ≤ 2 ^ 53 → |y| ≤ 2 ^ 53 → |z| ≤ 2 ^ 53 → |w| ≤ 2 ^ 53 →
      newArray p .momentum ⟨[1, 4], [.int x, .int y, .int z, .int w]⟩ =
        .ok ⟨[1, 4], [.flt (.fin x), .flt (.fin y), .flt (.fin z), .flt (.fin w)]⟩) := by
  have h16 := fun z => (C121_integers p z z).1
  have h32 := fun z => (C121_integers p z z).2.1
  have c1 : ∀ a : Elem, construct Cls.pdg.kind ⟨[1], [a]⟩ = .ok ⟨[1], [a]⟩ := fun _ => rfl
  have c2 : ∀ a b : Elem, construct Cls.color.kind ⟨[1, 2], [a, b]⟩ = .ok ⟨[1, 2], [a, b]⟩ := fun _ _ => rfl
  have c3 : ∀ a b : Elem, construct Cls.edges.kind ⟨[1, 2], [a, b]⟩ = .ok ⟨[1, 2], [a, b]⟩ := fun _ _ => rfl
  have c4 : ∀ a : Elem, construct Cls.helicity.kind ⟨[1], [a]⟩ = .ok ⟨[1], [a]⟩ := fun _ => rfl
  have c5 : ∀ a : Elem, construct Cls.status.kind ⟨[1], [a]⟩ = .ok ⟨[1], [a]⟩ := fun _ => rfl
  have c6 : ∀ a : Elem, construct Cls.mask.kind ⟨[1], [a]⟩ = .ok ⟨[1], [a]⟩ := fun _ => rfl
  have c7 : ∀ a b c d : Elem, construct Cls.momentum.kind ⟨[1, 4], [a, b, c, d]⟩ = .ok ⟨[1, 4], [a, b, c, d]⟩ := fun _ _ _ _ => by
    simp [construct, Cls.kind, convertNd, Kind.cols, isFlat]
  simp only [newArray, List.map_cons, List.map_nil, c1, c2, c3, c4, c5, c6, c7, Cls.dtype, Except.ok.injEq, Nd.mk.injEq, true_and,
    List.cons.injEq, and_true, h16, h32]
  refine ⟨?_, fun hx hy hz hw => ?_⟩
  · simp [castVal]
  simp only [castVal, hp.2.2 _ hx, hp.2.2 _ hy, hp.2.2 _ hz, hp.2.2 _ hw, and_self]

/-- **C121** The expectation that codes are stored as given, or refused, is refuted: an array holding the number 65559
gives a status of 23, which counts as outgoing in the hard process, and edges with different vertices become equal. -/
theorem C121_false (p : Platform) :
    newArray p .status ⟨[1], [.int 65559]⟩ = .ok ⟨[1], [.int 23]⟩ ∧
    newArray p .edges ⟨[2, 2], [.int 0, .int 1, .int 4294967296, .int 4294967297]⟩ =
      .ok ⟨[2, 2], [.int 0, .int 1, .int 0, .int 1]⟩ := by
  constructor
  · simp only [newArray, Cls.dtype, List.map_cons, List.map_nil, castVal, castInt,
      show wrapInt 16 65559 = 23 by decide]
    rfl
  · simp only [newArray, Cls.dtype, List.map_cons, List.map_nil, castVal, castInt,
      show wrapInt 32 0 = 0 by decide, show wrapInt 32 1 = 1 by decide, show wrapInt 32 4294967296 = 0 by decide,
      show wrapInt 32 4294967297 = 1 by decide]
    rfl

/-- A platform as assumed. -/
example : Sane ⟨fun _ _ => 0, fun z => z⟩ := ⟨fun _ => by norm_num, fun _ => by norm_num, fun _ _ => rfl⟩

/-- PDG codes given as doubles lose their fraction. -/
example (p : Platform) (hp : Sane p) : StoredAs .i4 (.flt (.fin (-11.9))) (.int (-11)) := by
  have h := cast_stored p hp .i4 (.flt (.fin (-11.9)))
  have := h.fraction (-11.9) (-11) (Or.inr rfl) rfl (by norm_num [OfType]) (by
    refine ⟨?_, ?_, ?_⟩ <;> norm_num [abs_of_neg, abs_of_pos, abs_lt])
  rw [this] at h
  exact h

end Gcl
