import Verif.Smt.ConcreteList
import Verif.Props.C71
import Mathlib.Data.List.Forall2

/-!
# C88: lists in counterexamples are shown as they are

Specification: the value of a list variable in a counterexample is shown by its elements, its length and, if the solver's array has
values outside of the bounds, these. Arrays of the solver are read as in the SMT-LIB theory of arrays.
Model: `Verif/Smt/ConcreteList.lean`.

* `C88_text`: the text of a list, for all lists: the first sixteen elements in order, dots exactly if there are more, the length, and the
  values which were stored outside of the bounds.
* `C88_array`: the text of an array, for all arrays.
* `C88_determines`: different lists (also nested ones) with up to sixteen elements each have different texts.
* `C88_negative`: for a negative length, the solver's own text is shown.
-/

namespace Caesar.Smt

/-! ## Specification -/

/-- `select` of the theory of arrays, on arrays written as stores into a constant array. -/
def ZVal.at : ZVal → ℤ → ZVal
  | .const v, _ => v
  | .store a (.int i) v, k => if k = i then v else a.at k
  | _, _ => .other []

/-- The value of the constant array. -/
def ZVal.base : ZVal → ZVal
  | .const v => v
  | .store a _ _ => a.base
  | _ => .other []

/-- There is a store at this index. -/
def ZVal.Stored : ZVal → ℤ → Prop
  | .store a (.int i) _, k => k = i ∨ a.Stored k
  | _, _ => False

/-- Arrays with values that satisfy `P`. -/
inductive IsArray (P : ZVal → Prop) : ZVal → Prop where
  | const (v : ZVal) : P v → IsArray P (.const v)
  | store (a : ZVal) (i : ℤ) (v : ZVal) : IsArray P a → P v → IsArray P (.store a (.int i) v)

/-! ## Numbers -/

theorem parseBigInt_paren (cs : CText) : parseBigInt ('(' :: cs) = none := by
  show (parseDigits 0 ('(' :: cs)).map (fun n => (n : ℤ)) = none
  rw [parseDigits, if_neg (by decide)]
  rfl

theorem parseNumeral_text (n : ℤ) : parseNumeral (zIntText n) = some n := by
  cases n with
  | ofNat n =>
    show (parseBigInt (natText n)).or _ = _
    rw [parseBigInt_natText]
    rfl
  | negSucc n =>
    unfold parseNumeral zIntText
    rw [parseBigInt_paren, Option.none_or, stripNeg]
    rw [if_pos (by simp), List.dropLast_concat, Option.bind_some, parseBigInt_natText]
    rfl

theorem intOf_int (n : ℤ) : intOf (.int n) = some n := parseNumeral_text n

/-- Does not start with a digit. -/
def NonDigit (r : CText) : Prop := ∀ c s, r = c :: s → ¬ ('0' ≤ c ∧ c ≤ '9')

theorem takeWhile_natText (n : ℕ) {r : CText} (h : NonDigit r) :
    (natText n ++ r).takeWhile (fun c => decide ('0' ≤ c ∧ c ≤ '9')) = natText n := by
  have hd : ∀ c ∈ natText n, decide ('0' ≤ c ∧ c ≤ '9') = true := fun c hc => by
    obtain ⟨d, hd, rfl⟩ := natText_dig n c hc
    exact decide_eq_true (digitChar_spec d hd).1
  rw [List.takeWhile_append_of_pos hd]
  cases r with
  | nil => simp
  | cons c s => rw [List.takeWhile_cons_of_neg (by simpa using h c s rfl), List.append_nil]

theorem natText_injective {n m : ℕ} (h : natText n = natText m) : n = m := by
  have h1 := parseDigits_natText n
  rw [h, parseDigits_natText] at h1
  exact (Option.some.inj h1).symm

theorem read_nat {n m : ℕ} {r r' : CText} (hr : NonDigit r) (hr' : NonDigit r') (h : natText n ++ r = natText m ++ r') : n = m ∧ r = r' := by
  have h1 := congrArg (List.takeWhile fun c => decide ('0' ≤ c ∧ c ≤ '9')) h
  rw [takeWhile_natText n hr, takeWhile_natText m hr'] at h1
  obtain rfl := natText_injective h1
  exact ⟨rfl, List.append_cancel_left h⟩

theorem natText_head (n : ℕ) : ∃ d < 10, ∃ s, natText n = digitChar d :: s := by
  cases h : natText n with
  | nil => exact absurd h (natText_ne_nil n)
  | cons c s =>
    obtain ⟨d, hd, rfl⟩ := natText_dig n c (by rw [h]; exact List.mem_cons_self)
    exact ⟨d, hd, s, rfl⟩

theorem digitChar_ne : ∀ d < 10, digitChar d ≠ '(' ∧ digitChar d ≠ ']' ∧ digitChar d ≠ '-' ∧ digitChar d ≠ '[' := by decide

theorem nonDigit_cons {c : Char} (h : ¬ ('0' ≤ c ∧ c ≤ '9')) (s : CText) : NonDigit (c :: s) := by
  intro c' s' h'
  obtain ⟨rfl, -⟩ := List.cons.inj h'
  exact h

theorem read_zInt {n m : ℤ} {r r' : CText} (hr : NonDigit r) (hr' : NonDigit r') (h : zIntText n ++ r = zIntText m ++ r') :
    n = m ∧ r = r' := by
  cases n with
  | ofNat n =>
    cases m with
    | ofNat m =>
      obtain ⟨rfl, h2⟩ := read_nat hr hr' h
      exact ⟨rfl, h2⟩
    | negSucc m =>
      obtain ⟨d, hd, s, hs⟩ := natText_head n
      simp only [zIntText] at h
      rw [hs] at h
      exact absurd (List.cons.inj h).1 (digitChar_ne d hd).1
  | negSucc n =>
    cases m with
    | ofNat m =>
      obtain ⟨d, hd, s, hs⟩ := natText_head m
      simp only [zIntText] at h
      rw [hs] at h
      exact absurd (List.cons.inj h).1.symm (digitChar_ne d hd).1
    | negSucc m =>
      simp only [zIntText, List.cons_append, List.append_assoc, List.nil_append, List.cons.injEq, true_and] at h
      obtain ⟨h1, h2⟩ := read_nat (nonDigit_cons (by decide) _) (nonDigit_cons (by decide) _) h
      obtain rfl : n = m := by omega
      exact ⟨rfl, (List.cons.inj h2).2⟩

theorem read_bigInt {n m : ℤ} {r r' : CText} (hr : NonDigit r) (hr' : NonDigit r') (h : bigIntText n ++ r = bigIntText m ++ r') :
    n = m ∧ r = r' := by
  cases n with
  | ofNat n =>
    cases m with
    | ofNat m =>
      obtain ⟨rfl, h2⟩ := read_nat hr hr' h
      exact ⟨rfl, h2⟩
    | negSucc m =>
      obtain ⟨d, hd, s, hs⟩ := natText_head n
      simp only [bigIntText] at h
      rw [hs] at h
      exact absurd (List.cons.inj h).1 (digitChar_ne d hd).2.2.1
  | negSucc n =>
    cases m with
    | ofNat m =>
      obtain ⟨d, hd, s, hs⟩ := natText_head m
      simp only [bigIntText] at h
      rw [hs] at h
      exact absurd (List.cons.inj h).1.symm (digitChar_ne d hd).2.2.1
    | negSucc m =>
      simp only [bigIntText, List.cons_append, List.cons.injEq, true_and] at h
      obtain ⟨h1, h2⟩ := read_nat hr hr' h
      obtain rfl : n = m := by omega
      exact ⟨rfl, h2⟩

/-! ## Arrays -/

/-- Inserting an index into a sorted list. -/
def insertKey (k : ℤ) : List ℤ → List ℤ
  | [] => [k]
  | k' :: r => if k < k' then k :: k' :: r else if k = k' then k :: r else k' :: insertKey k r

theorem mem_insertKey {k j : ℤ} : ∀ {ks : List ℤ}, j ∈ insertKey k ks ↔ j = k ∨ j ∈ ks
  | [] => by simp [insertKey]
  | k' :: r => by
    rw [insertKey]
    split
    · simp
    · split
      · rename_i h
        subst h
        simp
      · rw [List.mem_cons, mem_insertKey, List.mem_cons]
        tauto

theorem sorted_insertKey {k : ℤ} : ∀ {ks : List ℤ}, ks.Pairwise (· < ·) → (insertKey k ks).Pairwise (· < ·)
  | [], _ => by simp [insertKey]
  | k' :: r, h => by
    obtain ⟨h1, h2⟩ := List.pairwise_cons.1 h
    rw [insertKey]
    split
    · rename_i hlt
      refine List.pairwise_cons.2 ⟨fun j hj => ?_, h⟩
      rcases List.mem_cons.1 hj with rfl | hj
      · exact hlt
      · exact hlt.trans (h1 j hj)
    · split
      · rename_i he
        subst he
        exact List.pairwise_cons.2 ⟨h1, h2⟩
      · refine List.pairwise_cons.2 ⟨fun j hj => ?_, sorted_insertKey h2⟩
        rcases mem_insertKey.1 hj with rfl | hj
        · omega
        · exact h1 j hj

theorem insertStore_map {k : ℤ} {t : CText} {f g : ℤ → CText} (hk : g k = t) : ∀ {ks : List ℤ}, ks.Pairwise (· < ·) → (∀ j ∈ ks, j ≠ k → g j = f j) →
    insertStore k t (ks.map fun j => (j, f j)) = (insertKey k ks).map fun j => (j, g j)
  | [], _, _ => by simp [insertKey, insertStore, hk]
  | k' :: r, h, hf => by
    obtain ⟨h1, h2⟩ := List.pairwise_cons.1 h
    have hr : ∀ j ∈ r, j ≠ k → g j = f j := fun j hj => hf j (List.mem_cons_of_mem _ hj)
    have hm : (∀ j ∈ r, j ≠ k) → (r.map fun j => (j, f j)) = r.map fun j => (j, g j) := fun hn =>
      List.map_congr_left fun j hj => by rw [hr j hj (hn j hj)]
    rw [List.map_cons, insertStore, insertKey]
    split
    · rename_i hlt
      have hn : ∀ j ∈ r, j ≠ k := fun j hj => (hlt.trans (h1 j hj)).ne'
      rw [List.map_cons, List.map_cons, hk, hf k' List.mem_cons_self hlt.ne', hm hn]
    · split
      · rename_i he
        subst he
        rw [List.map_cons, hk, hm fun j hj => (h1 j hj).ne']
      · rename_i hne
        rw [List.map_cons, hf k' List.mem_cons_self (Ne.symm hne), insertStore_map hk h2 hr]

theorem lookup_map_keys {f : ℤ → CText} {k : ℤ} : ∀ {ks : List ℤ}, (k ∈ ks → (ks.map fun j => (j, f j)).lookup k = some (f k)) ∧
    (k ∉ ks → (ks.map fun j => (j, f j)).lookup k = none)
  | [] => by simp
  | j :: r => by
    have ih := lookup_map_keys (f := f) (k := k) (ks := r)
    rw [List.map_cons, List.lookup_cons]
    by_cases h : k = j
    · subst h
      simp
    · rw [show (k == j) = false from beq_eq_false_iff_ne.2 h]
      refine ⟨fun hm => ih.1 ((List.mem_cons.1 hm).resolve_left h), fun hm => ih.2 fun h' => hm (List.mem_cons_of_mem _ h')⟩

theorem at_of_not_stored {P : ZVal → Prop} {a : ZVal} (h : IsArray P a) {k : ℤ} (hk : ¬ a.Stored k) : a.at k = a.base := by
  induction h with
  | const v hv => rfl
  | store a i v _ _ ih =>
    rw [ZVal.Stored] at hk
    rw [ZVal.at, if_neg fun h => hk (.inl h), ZVal.base]
    exact ih fun h => hk (.inr h)

theorem at_sat {P : ZVal → Prop} {a : ZVal} (h : IsArray P a) (k : ℤ) : P (a.at k) := by
  induction h with
  | const v hv => exact hv
  | store a i v _ hv ih =>
    rw [ZVal.at]
    split
    · exact hv
    · exact ih

theorem base_sat {P : ZVal → Prop} {a : ZVal} (h : IsArray P a) : P a.base := by
  induction h with
  | const v hv => exact hv
  | store a i v _ hv ih => exact ih

variable (raw : ZVal → CText)

theorem arrayOf_spec {P : ZVal → Prop} {a : ZVal} (h : IsArray P a) : ∃ ks : List ℤ, ks.Pairwise (· < ·) ∧ (∀ k, k ∈ ks ↔ a.Stored k) ∧
    arrayOf raw a = some ⟨dynText raw a.base, ks.map fun k => (k, dynText raw (a.at k))⟩ := by
  induction h with
  | const v hv =>
    refine ⟨[], List.Pairwise.nil, fun k => by simp [ZVal.Stored], ?_⟩
    rw [arrayOf]
    rfl
  | store a i v ha hv ih =>
    obtain ⟨ks, h1, h2, h3⟩ := ih
    refine ⟨insertKey i ks, sorted_insertKey h1, fun k => by rw [mem_insertKey, h2, ZVal.Stored], ?_⟩
    rw [arrayOf, h3, intOf_int]
    show some _ = some _
    rw [insertStore_map (g := fun k => dynText raw ((ZVal.store a (.int i) v).at k)) _ h1]
    · rfl
    · intro j _ hj
      show dynText raw (if j = i then v else a.at j) = _
      rw [if_neg hj]
    · show dynText raw (if i = i then v else a.at i) = _
      rw [if_pos rfl]

theorem joinText_eq : ∀ ts : List CText, joinText ts = List.intercalate ", ".toList ts
  | [] => rfl
  | [t] => by simp [joinText, List.intercalate]
  | t :: u :: r => by
    have ih := joinText_eq (u :: r)
    rw [joinText, ih]
    · simp [List.intercalate]
    · exact fun h => nomatch h

theorem storesText_eq (f : ℤ → CText) : ∀ ks : List ℤ, storesText (ks.map fun k => (k, f k)) =
    List.intercalate ", ".toList (ks.map fun k => bigIntText k ++ (" -> ".toList ++ f k))
  | [] => rfl
  | [k] => by simp [storesText, List.intercalate]
  | k :: u :: r => by
    have ih := storesText_eq f (u :: r)
    rw [List.map_cons, storesText, ih]
    · simp [List.intercalate]
    · exact fun h => nomatch h

theorem listOf_array {P : ZVal → Prop} {a : ZVal} (h : IsArray P a) : listOf raw a = none := by
  cases h with
  | const v _ => rw [listOf]; exact fun _ _ h => nomatch h
  | store a i v _ _ => rw [listOf]; exact fun _ _ h => nomatch h

theorem ite_map {α : Type} (ks : List ℤ) (f : ℤ → ℤ × CText) (x y : α) : (if ks.map f = [] then x else y) = if ks = [] then x else y := by
  cases ks <;> rfl

theorem arrayText (d : CText) (ks : List ℤ) (f : ℤ → CText) : CArray.text ⟨d, ks.map fun k => (k, f k)⟩ =
    "const(".toList ++ d ++ [')'] ++ (if ks = [] then [] else
      " [".toList ++ List.intercalate ", ".toList (ks.map fun k => bigIntText k ++ (" -> ".toList ++ f k)) ++ [']']) :=
  (congrArg (_ ++ ·) (ite_map ks _ _ _)).trans (by rw [storesText_eq])

/-- The text of an array: the value of the constant array, and the stored values in the order of their indices. -/
theorem C88_array {a : ZVal} (h : IsArray (fun _ => True) a) : ∃ ks : List ℤ, ks.Pairwise (· < ·) ∧ (∀ k, k ∈ ks ↔ a.Stored k) ∧
    dynText raw a = "const(".toList ++ dynText raw a.base ++ [')'] ++ (if ks = [] then [] else
      " [".toList ++ List.intercalate ", ".toList (ks.map fun k => bigIntText k ++ (" -> ".toList ++ dynText raw (a.at k))) ++ [']']) := by
  obtain ⟨ks, h1, h2, h3⟩ := arrayOf_spec raw h
  refine ⟨ks, h1, h2, ?_⟩
  rw [dynText, listOf_array raw h, h3]
  exact arrayText _ _ _

theorem listText {P : ZVal → Prop} (n : ℕ) {e : ZVal} (h : IsArray P e) : ∃ ks : List ℤ, ks.Pairwise (· < ·) ∧
    (∀ k, k ∈ ks ↔ e.Stored k ∧ ¬ (0 ≤ k ∧ k < n)) ∧
    dynText raw (.mkList (.int n) e) =
      ['['] ++ (joinText ((List.range (min n 16)).map fun i : ℕ => dynText raw (e.at i)) ++ (if 16 < n then ", ...]".toList else [']'])) ++
      (" (len=".toList ++ natText n) ++
      (if ks = [] then [] else ", oob: default=".toList ++ dynText raw e.base ++
        (ks.map fun k => ", ".toList ++ bigIntText k ++ " -> ".toList ++ dynText raw (e.at k)).flatten) ++ [')'] := by
  obtain ⟨ks, h1, h2, h3⟩ := arrayOf_spec raw h
  refine ⟨ks.filter fun k => decide (k < 0 ∨ k ≥ n), h1.filter _, fun k => ?_, ?_⟩
  · rw [List.mem_filter, h2, decide_eq_true_iff]
    refine and_congr_right fun _ => ?_
    omega
  have hl : listOf raw (.mkList (.int n) e) = some (mkCList n ⟨dynText raw e.base, ks.map fun k => (k, dynText raw (e.at k))⟩) := by
    rw [listOf, intOf_int]
    show (if (n : ℤ) < 0 then none else (arrayOf raw e).map (mkCList n)) = _
    rw [if_neg (by omega), h3]
    rfl
  have hget : ∀ k : ℤ, (⟨dynText raw e.base, ks.map fun k => (k, dynText raw (e.at k))⟩ : CArray).get k = dynText raw (e.at k) := by
    intro k
    show (List.lookup k _).getD _ = _
    by_cases hk : k ∈ ks
    · rw [(lookup_map_keys (f := fun k => dynText raw (e.at k))).1 hk]
      rfl
    · rw [(lookup_map_keys (f := fun k => dynText raw (e.at k))).2 hk, at_of_not_stored h fun h' => hk ((h2 k).2 h')]
      rfl
  have hf : (ks.map fun k => (k, dynText raw (e.at k))).filter (fun e => decide (e.1 < 0 ∨ e.1 ≥ (n : ℤ))) =
      (ks.filter fun k => decide (k < 0 ∨ k ≥ (n : ℤ))).map fun k => (k, dynText raw (e.at k)) := by
    rw [List.filter_map]
    rfl
  rw [dynText, hl]
  show CList.text _ = _
  have ht : (decide ((n : ℤ).toNat > previewLimit) = true) = (16 < n) := by
    rw [decide_eq_true_iff, Int.toNat_natCast]
    rfl
  have hb : bigIntText (n : ℤ) = natText n := rfl
  have hp : previewLimit = 16 := rfl
  simp only [CList.text, mkCList, hget, hf, hb, ht, List.map_eq_nil_iff, List.map_map]
  rw [Int.toNat_natCast, hp]
  congr 3
  by_cases h16 : 16 < n
  · rw [if_pos h16, if_pos h16]
  · rw [if_neg h16, if_neg h16]

/-- The text of a list: its first sixteen elements in order, dots exactly if there are more, its length, and the values that were stored
outside of its bounds in the order of their indices, together with the value at all other indices. -/
theorem C88_text (n : ℕ) {e : ZVal} (h : IsArray (fun _ => True) e) : ∃ ks : List ℤ, ks.Pairwise (· < ·) ∧
    (∀ k, k ∈ ks ↔ e.Stored k ∧ ¬ (0 ≤ k ∧ k < n)) ∧
    dynText raw (.mkList (.int n) e) =
      ['['] ++ (List.intercalate ", ".toList ((List.range (min n 16)).map fun i : ℕ => dynText raw (e.at i)) ++
        (if 16 < n then ", ...]".toList else [']'])) ++
      (" (len=".toList ++ natText n) ++
      (if ks = [] then [] else ", oob: default=".toList ++ dynText raw e.base ++
        (ks.map fun k => ", ".toList ++ bigIntText k ++ " -> ".toList ++ dynText raw (e.at k)).flatten) ++ [')'] := by
  have := listText raw n h
  simp only [joinText_eq] at this
  exact this

/-- For negative lengths, which lists inside of lists can have, the text is Z3's own. -/
theorem C88_negative (n : ℤ) (hn : n < 0) (e : ZVal) : dynText raw (.mkList (.int n) e) = raw (.mkList (.int n) e) := by
  rw [dynText, listOf, intOf_int]
  show (match (if n < 0 then none else _ : Option CList) with | some l => _ | none => _) = _
  rw [if_pos hn, arrayOf]
  · rfl
  · exact fun _ _ _ h => nomatch h
  · exact fun _ h => nomatch h

/-! ## Different lists have different texts -/

/-- Integers, lists of integers, and so on, with up to sixteen elements. -/
def Elem : ℕ → ZVal → Prop
  | 0, v => ∃ n, v = .int n
  | d + 1, v => ∃ (n : ℕ) (e : ZVal), v = .mkList (.int n) e ∧ n ≤ 16 ∧ IsArray (Elem d) e

/-- They are the same lists: values outside of the bounds do not matter. -/
def Same : ℕ → ZVal → ZVal → Prop
  | 0, v, w => v = w
  | d + 1, v, w => ∃ (n : ℕ) (e f : ZVal), v = .mkList (.int n) e ∧ w = .mkList (.int n) f ∧ ∀ i : ℕ, i < n → Same d (e.at i) (f.at i)

theorem dynText_int (n : ℤ) : dynText raw (.int n) = zIntText n := by
  rw [dynText, listOf, arrayOf]
  · rfl
  · exact fun _ _ _ h => nomatch h
  · exact fun _ h => nomatch h
  · exact fun _ _ h => nomatch h

theorem elem_head {d : ℕ} {v : ZVal} (h : Elem d v) : ∃ c s, dynText raw v = c :: s ∧ c ≠ ']' := by
  cases d with
  | zero =>
    obtain ⟨n, rfl⟩ := h
    rw [dynText_int]
    cases n with
    | ofNat n =>
      obtain ⟨k, hk, s, hs⟩ := natText_head n
      exact ⟨_, s, hs, (digitChar_ne k hk).2.1⟩
    | negSucc n => exact ⟨_, _, rfl, by decide⟩
  | succ d =>
    obtain ⟨n, e, rfl, -, he⟩ := h
    obtain ⟨ks, -, -, ht⟩ := listText raw n he
    exact ⟨'[', _, ht, by decide⟩

/-- The text of a value can be read, whatever follows. -/
def Readable (d : ℕ) : Prop := ∀ v w r r', Elem d v → Elem d w → NonDigit r → NonDigit r' → dynText raw v ++ r = dynText raw w ++ r' →
  Same d v w ∧ r = r'

theorem sep_eq : ", ".toList = [',', ' '] := rfl

theorem nonDigit_sep (s : CText) : NonDigit (", ".toList ++ s) := by
  rw [sep_eq]
  exact nonDigit_cons (by decide) _

theorem nonDigit_arrow (s : CText) : NonDigit (" -> ".toList ++ s) := by
  rw [show " -> ".toList = [' ', '-', '>', ' '] from rfl]
  exact nonDigit_cons (by decide) _

theorem read_elems {d : ℕ} (hd : Readable raw d) : ∀ (vs ws : List ZVal), (∀ v ∈ vs, Elem d v) → (∀ w ∈ ws, Elem d w) → ∀ r r' : CText,
    joinText (vs.map (dynText raw)) ++ ']' :: r = joinText (ws.map (dynText raw)) ++ ']' :: r' → List.Forall₂ (Same d) vs ws ∧ r = r'
  | [], [], _, _, r, r', h => ⟨.nil, (List.cons.inj h).2⟩
  | [], w :: ws, _, hw, r, r', h => by
    obtain ⟨c, s, hc, hne⟩ := elem_head raw (hw w List.mem_cons_self)
    cases ws with
    | nil =>
      simp only [List.map, joinText, hc, List.nil_append, List.cons_append] at h
      exact absurd (List.cons.inj h).1.symm hne
    | cons w' ws =>
      simp only [List.map, joinText, hc, List.nil_append, List.cons_append] at h
      exact absurd (List.cons.inj h).1.symm hne
  | v :: vs, [], hv, _, r, r', h => by
    obtain ⟨c, s, hc, hne⟩ := elem_head raw (hv v List.mem_cons_self)
    cases vs with
    | nil =>
      simp only [List.map, joinText, hc, List.nil_append, List.cons_append] at h
      exact absurd (List.cons.inj h).1 hne
    | cons w' ws =>
      simp only [List.map, joinText, hc, List.nil_append, List.cons_append] at h
      exact absurd (List.cons.inj h).1 hne
  | v :: vs, w :: ws, hv, hw, r, r', h => by
    have e1 := hv v List.mem_cons_self
    have e2 := hw w List.mem_cons_self
    cases vs with
    | nil =>
      cases ws with
      | nil =>
        obtain ⟨h1, h2⟩ := hd v w _ _ e1 e2 (nonDigit_cons (by decide) _) (nonDigit_cons (by decide) _) h
        exact ⟨.cons h1 .nil, (List.cons.inj h2).2⟩
      | cons w' ws =>
        simp only [List.map, joinText, List.append_assoc] at h
        rw [sep_eq] at h
        obtain ⟨h1, h2⟩ := hd v w _ _ e1 e2 (nonDigit_cons (by decide) _) (nonDigit_cons (by decide) _) h
        exact absurd (List.cons.inj h2).1 (by decide)
    | cons v' vs =>
      cases ws with
      | nil =>
        simp only [List.map, joinText, List.append_assoc] at h
        rw [sep_eq] at h
        obtain ⟨h1, h2⟩ := hd v w _ _ e1 e2 (nonDigit_cons (by decide) _) (nonDigit_cons (by decide) _) h
        exact absurd (List.cons.inj h2).1 (by decide)
      | cons w' ws =>
        have hj : ∀ (x y : ZVal) (zs : List ZVal), joinText ((x :: y :: zs).map (dynText raw)) =
            dynText raw x ++ (", ".toList ++ joinText ((y :: zs).map (dynText raw))) := fun _ _ _ => rfl
        rw [hj, hj, List.append_assoc, List.append_assoc, List.append_assoc, List.append_assoc] at h
        obtain ⟨h1, h2⟩ := hd v w _ _ e1 e2 (nonDigit_sep _) (nonDigit_sep _) h
        obtain ⟨h3, h4⟩ := read_elems hd (v' :: vs) (w' :: ws) (fun x hx => hv x (List.mem_cons_of_mem _ hx))
          (fun x hx => hw x (List.mem_cons_of_mem _ hx)) r r' (List.append_cancel_left h2)
        exact ⟨.cons h1 h3, h4⟩

theorem read_entries {d : ℕ} (hd : Readable raw d) {f g : ℤ → ZVal} (hf : ∀ k, Elem d (f k)) (hg : ∀ k, Elem d (g k)) :
    ∀ (ks js : List ℤ) (r r' : CText),
    (ks.map fun k => ", ".toList ++ bigIntText k ++ " -> ".toList ++ dynText raw (f k)).flatten ++ ')' :: r =
      (js.map fun k => ", ".toList ++ bigIntText k ++ " -> ".toList ++ dynText raw (g k)).flatten ++ ')' :: r' → r = r'
  | [], [], r, r', h => (List.cons.inj h).2
  | [], j :: js, r, r', h => absurd (List.cons.inj h).1 (by decide)
  | k :: ks, [], r, r', h => absurd (List.cons.inj h).1 (by decide)
  | k :: ks, j :: js, r, r', h => by
    rw [List.map_cons, List.map_cons, List.flatten_cons, List.flatten_cons] at h
    simp only [List.append_assoc] at h
    have h1 := List.append_cancel_left h
    obtain ⟨rfl, h2⟩ := read_bigInt (nonDigit_arrow _) (nonDigit_arrow _) h1
    have h3 := List.append_cancel_left h2
    have hn : ∀ (f : ℤ → ZVal) (ks : List ℤ) (r : CText), NonDigit ((ks.map fun k => ", ".toList ++ (bigIntText k ++ (" -> ".toList ++
        dynText raw (f k)))).flatten ++ ')' :: r) := by
      intro f ks r
      cases ks with
      | nil => exact nonDigit_cons (by decide) _
      | cons k ks =>
        rw [List.map_cons, List.flatten_cons, List.append_assoc]
        exact nonDigit_sep _
    obtain ⟨-, h4⟩ := hd _ _ _ _ (hf k) (hg k) (hn f ks r) (hn g js r') h3
    exact read_entries hd hf hg ks js r r' (by simpa only [List.append_assoc] using h4)

theorem readable : ∀ d, Readable raw d
  | 0 => by
    rintro v w r r' ⟨n, rfl⟩ ⟨m, rfl⟩ hr hr' h
    rw [dynText_int, dynText_int] at h
    obtain ⟨rfl, h2⟩ := read_zInt hr hr' h
    exact ⟨rfl, h2⟩
  | d + 1 => by
    rintro v w r r' ⟨n, e, rfl, hn, he⟩ ⟨m, f, rfl, hm, hf⟩ hr hr' h
    have hd := readable d
    obtain ⟨ks, -, -, ht⟩ := listText raw n he
    obtain ⟨js, -, -, ht'⟩ := listText raw m hf
    rw [if_neg (by omega), min_eq_left hn] at ht
    rw [if_neg (by omega), min_eq_left hm] at ht'
    rw [ht, ht'] at h
    simp only [List.append_assoc, List.cons_append, List.nil_append, List.cons.injEq, true_and] at h
    have hmap : ∀ (e : ZVal) (n : ℕ), ((List.range n).map fun i : ℕ => dynText raw (e.at i)) =
        ((List.range n).map fun i : ℕ => e.at i).map (dynText raw) := fun e n => by
      rw [List.map_map]
      rfl
    rw [hmap, hmap] at h
    obtain ⟨h1, h2⟩ := read_elems raw hd _ _ (fun v hv => by
        obtain ⟨i, -, rfl⟩ := List.mem_map.1 hv
        exact at_sat he _) (fun v hv => by
        obtain ⟨i, -, rfl⟩ := List.mem_map.1 hv
        exact at_sat hf _) _ _ h
    have hlen := h1.length_eq
    rw [List.length_map, List.length_map, List.length_range, List.length_range] at hlen
    subst hlen
    refine ⟨⟨n, e, f, rfl, rfl, fun i hi => ?_⟩, ?_⟩
    · have := List.forall₂_iff_get.1 h1
      have hi' : i < ((List.range n).map fun i : ℕ => e.at i).length := by simpa using hi
      have hi'' : i < ((List.range n).map fun i : ℕ => f.at i).length := by simpa using hi
      have h3 := this.2 i hi' hi''
      simpa using h3
    have h3 := List.append_cancel_left (List.append_cancel_left h2)
    by_cases hk : ks = []
    · by_cases hj : js = []
      · rw [if_pos hk, if_pos hj] at h3
        exact (List.cons.inj h3).2
      · rw [if_pos hk, if_neg hj] at h3
        exact absurd (List.cons.inj h3).1 (by decide)
    · by_cases hj : js = []
      · rw [if_neg hk, if_pos hj] at h3
        exact absurd (List.cons.inj h3).1 (by decide)
      · rw [if_neg hk, if_neg hj] at h3
        simp only [List.append_assoc] at h3
        have h4 := List.append_cancel_left (as := ", oob: default=".toList) h3
        have hne : ∀ (f : ℤ → ZVal) (ks : List ℤ) (r : CText), ks ≠ [] → NonDigit ((ks.map fun k => ", ".toList ++ (bigIntText k ++
            (" -> ".toList ++ dynText raw (f k)))).flatten ++ r) := by
          intro f ks r hk
          cases ks with
          | nil => exact absurd rfl hk
          | cons k ks =>
            rw [List.map_cons, List.flatten_cons, List.append_assoc]
            exact nonDigit_sep _
        obtain ⟨-, h5⟩ := hd _ _ _ _ (base_sat he) (base_sat hf) (hne _ _ _ hk) (hne _ _ _ hj) h4
        exact read_entries raw hd (at_sat he) (at_sat hf) ks js r r' (by simpa only [List.append_assoc] using h5)

/-- The text determines the list, for lists of integers, lists of such lists, and so on. -/
theorem C88_determines {d : ℕ} {v w : ZVal} (hv : Elem d v) (hw : Elem d w) (h : dynText raw v = dynText raw w) : Same d v w :=
  (readable raw d v w [] [] hv hw (fun _ _ h => nomatch h) (fun _ _ h => nomatch h) (by rw [h])).1

theorem natText_small {d : ℕ} (h : d < 10) : natText d = [digitChar d] := by rw [natText, if_pos h]

/-- The list `[7, -1, 7]` with a value outside of its bounds. -/
example : dynText raw (.mkList (.int 3) (.store (.store (.store (.const (.int 7)) (.int 1) (.int 5)) (.int 4) (.int 9)) (.int 1) (.int (-1)))) =
    "[7, (- 1), 7] (len=3, oob: default=7, 4 -> 9)".toList := by
  obtain ⟨ks, h1, h2, h3⟩ := C88_text raw 3 (.store _ 1 (.int (-1)) (.store _ 4 (.int 9) (.store _ 1 (.int 5) (.const (.int 7) trivial) trivial) trivial) trivial)
  have h4 : ks = [4] := by
    have h5 : ∀ k, k ∈ ks ↔ k = 4 := fun k => by
      rw [h2]
      simp only [ZVal.Stored]
      constructor
      · rintro ⟨rfl | rfl | rfl | h, h'⟩
        · exact absurd ⟨by omega, by omega⟩ h'
        · rfl
        · exact absurd ⟨by omega, by omega⟩ h'
        · exact h.elim
      · rintro rfl
        exact ⟨.inr (.inl rfl), by omega⟩
    cases ks with
    | nil => exact absurd ((h5 4).2 rfl) (by simp)
    | cons k r =>
      obtain rfl := (h5 k).1 List.mem_cons_self
      cases r with
      | nil => rfl
      | cons j r =>
        obtain rfl := (h5 j).1 (by simp)
        exact absurd ((List.pairwise_cons.1 h1).1 4 (by simp)) (by omega)
  subst h4
  refine h3.trans ?_
  have e7 : dynText raw (.int 7) = ['7'] := (dynText_int raw 7).trans (natText_small (d := 7) (by omega))
  have e9 : dynText raw (.int 9) = ['9'] := (dynText_int raw 9).trans (natText_small (d := 9) (by omega))
  have e1 : dynText raw (.int (-1)) = ['(', '-', ' ', '1', ')'] :=
    (dynText_int raw (-1)).trans (congrArg (fun t => '(' :: '-' :: ' ' :: (t ++ [')'])) (natText_small (d := 1) (by omega)))
  have e4 : bigIntText 4 = ['4'] := natText_small (d := 4) (by omega)
  have e3 : natText 3 = ['3'] := natText_small (by omega)
  show ['['] ++ (List.intercalate ", ".toList [dynText raw (.int 7), dynText raw (.int (-1)), dynText raw (.int 7)] ++ [']']) ++
    (" (len=".toList ++ natText 3) ++ (", oob: default=".toList ++ dynText raw (.int 7) ++
      [", ".toList ++ bigIntText 4 ++ " -> ".toList ++ dynText raw (.int 9)].flatten) ++ [')'] = _
  rw [e7, e9, e1, e4, e3]
  rfl

/-- Lists of lists. -/
example (raw : ZVal → CText) (v w : ZVal)
    (hv : v = .mkList (.int 1) (.const (.mkList (.int 2) (.const (.int 0))))) (hw : w = .mkList (.int 1) (.const (.mkList (.int 0) (.const (.int 0))))) :
    dynText raw v ≠ dynText raw w := by
  subst hv hw
  intro h
  have hE : ∀ n : ℕ, n ≤ 16 → Elem 2 (.mkList (.int 1) (.const (.mkList (.int n) (.const (.int 0))))) := fun n hn =>
    ⟨1, _, rfl, by omega, .const _ ⟨n, _, rfl, hn, .const _ ⟨0, rfl⟩⟩⟩
  obtain ⟨n, e, f, h1, h2, h3⟩ := C88_determines raw (hE 2 (by omega)) (hE 0 (by omega)) h
  injection h1 with h4 h5
  injection h2 with _ h6
  subst h5 h6
  obtain rfl : n = 1 := by injection h4 with h7; omega
  obtain ⟨m, e, f, h7, h8, -⟩ := h3 0 (by omega)
  injection h7 with h9
  injection h8 with h10
  injection h9 with h9
  injection h10 with h10
  omega

end Caesar.Smt
