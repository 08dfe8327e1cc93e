import Verif.Smt.Accessed
import Mathlib.Tactic.Linarith
import Mathlib.Tactic.NormNum

/-!
# C71: the rest of the solver's model is listed, and numbers are shown as they are

The report of a counterexample ends with those constants of the solver's model which were not evaluated before. Numbers are shown as they are
in the model, or an error is shown.
-/

namespace Caesar.Smt

mutual
/-- Specification: the constant occurs in the expression, outside of quantifiers. -/
def Ast.Has (n : String) : Ast → Prop
  | .const m => m = n
  | .app _ args => Ast.HasIn n args
  | .other _ => False
/-- Specification: the constant occurs in one of the expressions, outside of quantifiers. -/
def Ast.HasIn (n : String) : List Ast → Prop
  | [] => False
  | a :: as => Ast.Has n a ∨ Ast.HasIn n as
end

mutual
/-- Specification: the constant occurs in the expression. -/
def Ast.Mentions (n : String) : Ast → Prop
  | .const m => m = n
  | .app _ args => Ast.MentionsIn n args
  | .other body => Ast.MentionsIn n body
/-- Specification: the constant occurs in one of the expressions. -/
def Ast.MentionsIn (n : String) : List Ast → Prop
  | [] => False
  | a :: as => Ast.Mentions n a ∨ Ast.MentionsIn n as
end

/-- The full property: those constants are listed which do not occur in what was evaluated successfully, and all rational numbers are shown. -/
def C71_full : Prop :=
  (∀ (model : List String) (as : List Access) (n : String),
    n ∈ unaccessed model as ↔ n ∈ model ∧ ∀ a ∈ as, a.ok = true → ∀ e ∈ a.asts, ¬ Ast.Mentions n e) ∧
  ∀ q : ℚ, evalRat q = some (some q)

/-! ## Accessed constants -/

mutual
theorem Ast.beq_eq : ∀ {a b : Ast}, a.beq b = true → a = b
  | .const _, .const _, h => by rw [Ast.beq, decide_eq_true_iff] at h; rw [h]
  | .app _ _, .app _ _, h => by
    rw [Ast.beq, Bool.and_eq_true, decide_eq_true_iff] at h
    rw [h.1, Ast.beqs_eq h.2]
  | .other _, .other _, h => by rw [Ast.beq] at h; rw [Ast.beqs_eq h]
  | .const _, .app _ _, h => by simp [Ast.beq] at h
  | .const _, .other _, h => by simp [Ast.beq] at h
  | .app _ _, .const _, h => by simp [Ast.beq] at h
  | .app _ _, .other _, h => by simp [Ast.beq] at h
  | .other _, .const _, h => by simp [Ast.beq] at h
  | .other _, .app _ _, h => by simp [Ast.beq] at h
theorem Ast.beqs_eq : ∀ {as bs : List Ast}, Ast.beqs as bs = true → as = bs
  | [], [], _ => rfl
  | _ :: _, _ :: _, h => by
    rw [Ast.beqs, Bool.and_eq_true] at h
    rw [Ast.beq_eq h.1, Ast.beqs_eq h.2]
  | [], _ :: _, h => by simp [Ast.beqs] at h
  | _ :: _, [], h => by simp [Ast.beqs] at h
end

mutual
/-- The size of an expression. -/
def Ast.size : Ast → Nat
  | .const _ => 1
  | .app _ args => 1 + Ast.sizes args
  | .other _ => 1
/-- The sum of the sizes. -/
def Ast.sizes : List Ast → Nat
  | [] => 0
  | a :: as => a.size + Ast.sizes as
end

/-- All constants of the expression are marked. -/
def Covered (s : Accessed) (a : Ast) : Prop := ∀ n, Ast.Has n a → n ∈ s.decls

theorem Covered.mono {s s' : Accessed} {a : Ast} (h : Covered s a) (hs : ∀ n ∈ s.decls, n ∈ s'.decls) : Covered s' a := fun n hn => hs n (h n hn)

mutual
theorem mark_spec : ∀ (a : Ast) (s : Accessed), (∀ x ∈ s.exprs, x.size < a.size → Covered s x) →
    (∀ n ∈ s.decls, n ∈ (mark a s).decls) ∧ (∀ n ∈ (mark a s).decls, n ∈ s.decls ∨ Ast.Has n a) ∧ Covered (mark a s) a ∧
      (∀ x ∈ s.exprs, x ∈ (mark a s).exprs) ∧ ∀ x ∈ (mark a s).exprs, x ∈ s.exprs ∨ Covered (mark a s) x
  | .const m, s, _ => by
    simp only [mark]
    refine ⟨fun n hn => List.mem_cons_of_mem _ hn, fun n hn => ?_, fun n hn => ?_, fun x hx => hx, fun x hx => .inl hx⟩
    · rcases List.mem_cons.1 hn with rfl | hn
      · exact .inr (by simp [Ast.Has])
      · exact .inl hn
    · simp only [Ast.Has] at hn
      subst hn
      exact List.mem_cons_self
  | .app f args, s, h => by
    simp only [mark]
    obtain ⟨h1, h2, h3, h4, h5⟩ := markArgs_spec args s (Ast.sizes args + 1) (Nat.lt_succ_self _) fun x hx hlt => h x hx (by simp only [Ast.size]; omega)
    refine ⟨h1, fun n hn => (h2 n hn).imp id fun h => by simpa [Ast.Has] using h, fun n hn => ?_, h4, h5⟩
    simp only [Ast.Has] at hn
    exact h3 n hn
  | .other b, s, _ => by
    simp only [mark]
    exact ⟨fun n hn => hn, fun n hn => .inl hn, fun n hn => by simp [Ast.Has] at hn, fun x hx => hx, fun x hx => .inl hx⟩
theorem markArgs_spec : ∀ (as : List Ast) (s : Accessed) (k : Nat), Ast.sizes as < k → (∀ x ∈ s.exprs, x.size < k → Covered s x) →
    (∀ n ∈ s.decls, n ∈ (markArgs as s).decls) ∧ (∀ n ∈ (markArgs as s).decls, n ∈ s.decls ∨ Ast.HasIn n as) ∧
      (∀ n, Ast.HasIn n as → n ∈ (markArgs as s).decls) ∧
      (∀ x ∈ s.exprs, x ∈ (markArgs as s).exprs) ∧ ∀ x ∈ (markArgs as s).exprs, x ∈ s.exprs ∨ Covered (markArgs as s) x
  | [], s, k, _, _ => by
    simp only [markArgs]
    exact ⟨fun n hn => hn, fun n hn => .inl hn, fun n hn => by simp [Ast.HasIn] at hn, fun x hx => hx, fun x hx => .inl hx⟩
  | a :: as, s, k, hk, h => by
    simp only [Ast.sizes] at hk
    simp only [markArgs]
    by_cases hseen : s.seen a = true
    · rw [if_pos hseen]
      obtain ⟨x, hx, hxa⟩ := List.any_eq_true.1 hseen
      have hxa := Ast.beq_eq hxa
      subst hxa
      have hc := h x hx (by omega)
      obtain ⟨h1, h2, h3, h4, h5⟩ := markArgs_spec as s k (by omega) h
      refine ⟨h1, fun n hn => (h2 n hn).imp id fun h => by simp only [Ast.HasIn]; exact .inr h, fun n hn => ?_, h4, h5⟩
      simp only [Ast.HasIn] at hn
      rcases hn with hn | hn
      · exact h1 n (hc n hn)
      · exact h3 n hn
    · rw [if_neg hseen]
      obtain ⟨g1, g2, g3, g4, g5⟩ := mark_spec a { s with exprs := a :: s.exprs } (by
        intro x hx hlt
        rcases List.mem_cons.1 hx with rfl | hx
        · exact absurd hlt (lt_irrefl _)
        · exact h x hx (by omega))
      have hinv : ∀ x ∈ (mark a { s with exprs := a :: s.exprs }).exprs, x ∈ s.exprs ∨ Covered (mark a { s with exprs := a :: s.exprs }) x := by
        intro x hx
        rcases g5 x hx with hx | hx
        · rcases List.mem_cons.1 hx with rfl | hx
          · exact .inr g3
          · exact .inl hx
        · exact .inr hx
      obtain ⟨h1, h2, h3, h4, h5⟩ := markArgs_spec as (mark a { s with exprs := a :: s.exprs }) k (by omega) (by
        intro x hx hlt
        rcases hinv x hx with hx | hx
        · exact Covered.mono (h x hx hlt) g1
        · exact hx)
      refine ⟨fun n hn => h1 n (g1 n hn), fun n hn => ?_, fun n hn => ?_, fun x hx => h4 x (g4 x (List.mem_cons_of_mem _ hx)), fun x hx => ?_⟩
      · simp only [Ast.HasIn]
        rcases h2 n hn with hn | hn
        · exact (g2 n hn).imp id .inl
        · exact .inr (.inr hn)
      · simp only [Ast.HasIn] at hn
        rcases hn with hn | hn
        · exact h1 n (g3 n hn)
        · exact h3 n hn
      · rcases h5 x hx with hx | hx
        · exact (hinv x hx).imp id fun h => Covered.mono h h1
        · exact .inr hx
end

/-- All expressions which are skipped are covered. -/
def AllCovered (s : Accessed) : Prop := ∀ x ∈ s.exprs, Covered s x

theorem mark_all {s : Accessed} (h : AllCovered s) (a : Ast) : AllCovered (mark a s) ∧ ∀ n, n ∈ (mark a s).decls ↔ n ∈ s.decls ∨ Ast.Has n a := by
  obtain ⟨h1, h2, h3, -, h5⟩ := mark_spec a s fun x hx _ => h x hx
  refine ⟨fun x hx => (h5 x hx).elim (fun hx => Covered.mono (h x hx) h1) id, fun n => ⟨h2 n, fun hn => hn.elim (h1 n) (h3 n)⟩⟩

theorem marks_all (es : List Ast) {s : Accessed} (h : AllCovered s) :
    AllCovered (es.foldl (fun s e => mark e s) s) ∧ ∀ n, n ∈ (es.foldl (fun s e => mark e s) s).decls ↔ n ∈ s.decls ∨ ∃ e ∈ es, Ast.Has n e := by
  induction es generalizing s with
  | nil => exact ⟨h, fun n => by simp⟩
  | cons e es ih =>
    obtain ⟨h1, h2⟩ := mark_all h e
    obtain ⟨h3, h4⟩ := ih h1
    refine ⟨h3, fun n => ?_⟩
    rw [List.foldl_cons, h4, h2]
    simp only [List.mem_cons, exists_eq_or_imp]
    tauto

theorem accesses_all (as : List Access) {s : Accessed} (h : AllCovered s) :
    ∀ n, n ∈ (as.foldl access s).decls ↔ n ∈ s.decls ∨ ∃ a ∈ as, a.ok = true ∧ ∃ e ∈ a.asts, Ast.Has n e := by
  induction as generalizing s with
  | nil => intro n; simp
  | cons a as ih =>
    intro n
    rw [List.foldl_cons]
    cases ha : a.ok with
    | false =>
      have : access s a = s := by simp [access, ha]
      rw [this, ih h]
      simp [ha]
    | true =>
      have : access s a = a.asts.foldl (fun s e => mark e s) s := by simp [access, ha]
      obtain ⟨h1, h2⟩ := marks_all a.asts h
      rw [this, ih h1, h2]
      simp only [List.mem_cons, exists_eq_or_imp, ha, true_and]
      exact or_assoc

/-- The constants are listed which do not occur outside of quantifiers in what was evaluated successfully: skipping expressions that were seen
before loses nothing, and failed evaluations leave no marks. -/
theorem C71_listed_partial (model : List String) (as : List Access) (n : String) :
    n ∈ unaccessed model as ↔ n ∈ model ∧ ∀ a ∈ as, a.ok = true → ∀ e ∈ a.asts, ¬ Ast.Has n e := by
  unfold unaccessed
  rw [List.mem_filter, decide_eq_true_iff, accesses_all as (s := ⟨[], []⟩) fun x hx => by cases hx]
  refine and_congr_right fun _ => ⟨fun h a ha ho e he hn => h (.inr ⟨a, ha, ho, e, he, hn⟩), fun h => ?_⟩
  rintro (h' | ⟨a, ha, ho, e, he, hn⟩)
  · cases h'
  · exact h a ha ho e he hn

/-- With shared expressions and a failed evaluation: `z` is only in the failed one. -/
example : unaccessed ["x", "y", "z", "w"] [⟨[.app "+" [.app "*" [.const "x", .const "x"], .app "*" [.const "x", .const "x"], .const "y"]], true⟩,
    ⟨[.app "/" [.const "x", .const "z"]], false⟩] = ["z", "w"] := by decide

/-! ## Rational numbers -/

theorem digitChar_spec : ∀ d < 10, ('0' ≤ digitChar d ∧ digitChar d ≤ '9') ∧ (digitChar d).toNat - 48 = d ∧ digitChar d ≠ '.' ∧ digitChar d ≠ ' ' ∧
    digitChar d ≠ '\t' ∧ digitChar d ≠ '\n' ∧ digitChar d ≠ '-' ∧ digitChar d ≠ '+' ∧ digitChar d ≠ '(' := by decide

/-- A character that is a digit. -/
def IsDig (c : Char) : Prop := ∃ d < 10, c = digitChar d

theorem natText_dig (n : Nat) : ∀ c ∈ natText n, IsDig c := by
  induction n using Nat.strongRecOn with
  | ind n ih =>
    intro c hc
    rw [natText] at hc
    split at hc
    · rename_i h
      exact ⟨n, h, List.mem_singleton.1 hc⟩
    · rename_i h
      rcases List.mem_append.1 hc with hc | hc
      · exact ih (n / 10) (by omega) c hc
      · exact ⟨n % 10, Nat.mod_lt _ (by omega), List.mem_singleton.1 hc⟩

theorem natText_ne_nil (n : Nat) : natText n ≠ [] := by
  rw [natText]
  split <;> simp

theorem parseDigits_append (xs ys : List Char) (m : Nat) : parseDigits m (xs ++ ys) = (parseDigits m xs).bind fun k => parseDigits k ys := by
  induction xs generalizing m with
  | nil => rfl
  | cons c xs ih =>
    rw [List.cons_append, parseDigits, parseDigits]
    split
    · exact ih _
    · rfl

theorem parseDigits_digit (m d : Nat) (h : d < 10) : parseDigits m [digitChar d] = some (10 * m + d) := by
  obtain ⟨h1, h2, -⟩ := digitChar_spec d h
  rw [parseDigits, if_pos h1, h2, parseDigits]

theorem parseDigits_natText (n : Nat) : parseDigits 0 (natText n) = some n := by
  induction n using Nat.strongRecOn with
  | ind n ih =>
    rw [natText]
    split
    · rename_i h
      rw [parseDigits_digit 0 n h]
      simp
    · rename_i h
      rw [parseDigits_append, ih (n / 10) (by omega), Option.bind_some, parseDigits_digit _ _ (Nat.mod_lt _ (by omega))]
      congr 1
      omega

theorem parseBigInt_natText (n : Nat) : parseBigInt (natText n) = some (n : ℤ) := by
  have h := parseDigits_natText n
  have hd := natText_dig n
  have hn := natText_ne_nil n
  revert h hd hn
  generalize natText n = cs
  intro h hd hn
  unfold parseBigInt
  split
  · exact absurd rfl hn
  · obtain ⟨d, hd, hc⟩ := hd _ List.mem_cons_self
    exact absurd hc.symm (digitChar_spec d hd).2.2.2.2.2.2.1
  · obtain ⟨d, hd, hc⟩ := hd _ List.mem_cons_self
    exact absurd hc.symm (digitChar_spec d hd).2.2.2.2.2.2.2.1
  · obtain ⟨d, hd, hc⟩ := hd _ List.mem_cons_self
    exact absurd hc.symm (digitChar_spec d hd).2.2.2.2.2.2.1
  · obtain ⟨d, hd, hc⟩ := hd _ List.mem_cons_self
    exact absurd hc.symm (digitChar_spec d hd).2.2.2.2.2.2.2.1
  · rw [h]
    rfl

theorem dropPointZero_dig (cs : List Char) (h : ∀ c ∈ cs, IsDig c) : dropPointZero (cs ++ ['.', '0']) = cs := by
  induction cs with
  | nil => rfl
  | cons c cs ih =>
    obtain ⟨d, hd, hc⟩ := h c List.mem_cons_self
    have hne : c ≠ '.' := fun h => (digitChar_spec d hd).2.2.1 (hc.symm.trans h)
    rw [List.cons_append, dropPointZero, ih fun c hc => h c (List.mem_cons_of_mem _ hc)]
    intro cs' h1
    exact fun _ => hne h1

theorem dropPointZeroParen_dig (cs : List Char) (h : ∀ c ∈ cs, IsDig c) : dropPointZeroParen (cs ++ ['.', '0', ')']) = cs := by
  induction cs with
  | nil => rfl
  | cons c cs ih =>
    obtain ⟨d, hd, hc⟩ := h c List.mem_cons_self
    have hne : c ≠ '.' := fun h => (digitChar_spec d hd).2.2.1 (hc.symm.trans h)
    rw [List.cons_append, dropPointZeroParen, ih fun c hc => h c (List.mem_cons_of_mem _ hc)]
    intro cs' h1
    exact fun _ => hne h1

theorem splitWords_word (w : List Char) (h : ∀ c ∈ w, ¬ (c = ' ' ∨ c = '\t' ∨ c = '\n')) (rest cur : List Char) :
    splitWords (w ++ rest) cur = splitWords rest (w.reverse ++ cur) := by
  induction w generalizing cur with
  | nil => rfl
  | cons c w ih =>
    rw [List.cons_append, splitWords, if_neg (h c List.mem_cons_self), ih fun c hc => h c (List.mem_cons_of_mem _ hc)]
    simp

theorem splitWords_space (rest cur : List Char) (h : cur ≠ []) : splitWords (' ' :: rest) cur = cur.reverse :: splitWords rest [] := by
  rw [splitWords, if_pos (.inl rfl), if_neg h]

theorem splitWords_end (cur : List Char) (h : cur ≠ []) : splitWords [] cur = [cur.reverse] := by
  cases cur with
  | nil => exact absurd rfl h
  | cons c cur => rfl

/-- The text of a fraction is parsed to that fraction. -/
theorem parseReal_fraction (n d : Nat) (hd : d ≠ 0) :
    parseReal ("(/ ".toList ++ natText n ++ ".0 ".toList ++ natText d ++ ".0)".toList) = some (some ((n : ℚ) / d)) := by
  have hws : ∀ m : Nat, ∀ c ∈ natText m ++ ['.', '0'], ¬ (c = ' ' ∨ c = '\t' ∨ c = '\n') := by
    intro m c hc
    rcases List.mem_append.1 hc with hc | hc
    · obtain ⟨k, hk, rfl⟩ := natText_dig m c hc
      obtain ⟨-, -, -, h1, h2, h3, -⟩ := digitChar_spec k hk
      rintro (h | h | h)
      · exact h1 h
      · exact h2 h
      · exact h3 h
    · simp only [List.mem_cons, List.not_mem_nil, or_false] at hc
      rcases hc with rfl | rfl <;> decide
  have htext : "(/ ".toList ++ natText n ++ ".0 ".toList ++ natText d ++ ".0)".toList =
      ['(', '/'] ++ ' ' :: ((natText n ++ ['.', '0']) ++ ' ' :: ((natText d ++ ['.', '0']) ++ [')'])) := by
    simp [show "(/ ".toList = ['(', '/', ' '] from rfl, show ".0 ".toList = ['.', '0', ' '] from rfl, show ".0)".toList = ['.', '0', ')'] from rfl]
  have hsplit : splitWords ("(/ ".toList ++ natText n ++ ".0 ".toList ++ natText d ++ ".0)".toList) [] =
      [['(', '/'], natText n ++ ['.', '0'], natText d ++ ['.', '0', ')']] := by
    rw [htext, splitWords_word _ (by decide), splitWords_space _ _ (by decide), splitWords_word _ (hws n), splitWords_space _ _ (by simp),
      splitWords_word _ (hws d), show [')'] = [')'] ++ [] from rfl, splitWords_word [')'] (by decide) [], splitWords_end _ (by simp)]
    simp
  unfold parseReal
  rw [if_neg, hsplit]
  · dsimp only
    rw [if_neg (show ¬ (['(', '/'] ≠ "(/".toList) from not_not.2 rfl), dropPointZero_dig _ (natText_dig n), dropPointZeroParen_dig _ (natText_dig d), parseBigInt_natText, parseBigInt_natText]
    dsimp only
    rw [if_neg (by exact_mod_cast hd)]
    simp
  · rw [not_or, not_not, not_not]
    constructor
    · rw [List.isPrefixOf_iff_prefix]
      exact ⟨natText n ++ (".0 ".toList ++ (natText d ++ ".0)".toList)), by simp only [List.append_assoc]⟩
    · rw [List.isSuffixOf_iff_suffix]
      exact ⟨_, rfl⟩

/-- Other texts are errors. -/
theorem parseReal_other (text : List Char) (h : ¬ ("(/ ".toList <+: text)) : parseReal text = some none := by
  unfold parseReal
  rw [if_pos (.inl (by rwa [List.isPrefixOf_iff_prefix]))]

/-- A number is shown as it is or an error is shown; the parsing does not panic. -/
theorem C71_numbers (q : ℚ) : evalRat q = some (some q) ∨ evalRat q = some none := by
  unfold evalRat
  split
  · exact .inl rfl
  · unfold ratText
    split
    · exact .inr (parseReal_other _ fun ⟨t, ht⟩ => by simp at ht)
    · rename_i hq
      unfold posText
      split
      · refine .inr (parseReal_other _ fun ⟨t, ht⟩ => ?_)
        obtain ⟨c, cs, hc⟩ := List.exists_cons_of_ne_nil (natText_ne_nil q.num.natAbs)
        obtain ⟨d, hd, hcd⟩ := natText_dig q.num.natAbs c (by rw [hc]; exact List.mem_cons_self)
        rw [hc] at ht
        simp at ht
        exact (digitChar_spec d hd).2.2.2.2.2.2.2.2 (hcd.symm.trans ht.1.symm)
      · rw [parseReal_fraction _ _ q.den_nz]
        refine .inl ?_
        have h0 : 0 ≤ q.num := Rat.num_nonneg.2 (not_lt.1 hq)
        have h1 : ((q.num.natAbs : ℕ) : ℚ) = (q.num : ℚ) := by
          rw [← Int.cast_natCast, Int.natAbs_of_nonneg h0]
        rw [h1, Rat.num_div_den]

/-- Fractions that are not negative are shown, of any size. -/
theorem C71_fractions (q : ℚ) (h0 : 0 ≤ q) (h1 : q.den ≠ 1) : evalRat q = some (some q) := by
  unfold evalRat
  split
  · rfl
  · unfold ratText posText
    rw [if_neg (not_lt.2 h0), if_neg h1, parseReal_fraction _ _ q.den_nz]
    have h2 : ((q.num.natAbs : ℕ) : ℚ) = (q.num : ℚ) := by
      rw [← Int.cast_natCast, Int.natAbs_of_nonneg (Rat.num_nonneg.2 h0)]
    rw [h2, Rat.num_div_den]

example : (0 : ℚ) ≤ mkRat 1 3 ∧ (mkRat 1 3).den ≠ 1 := by decide

/-- Large integers are not shown. -/
theorem C71_integers_not_full : evalRat (2 ^ 63) = some none := by
  have hd : ((2 : ℚ) ^ 63).den = 1 := by norm_num
  have hn : ((2 : ℚ) ^ 63).num = 2 ^ 63 := by norm_num
  rcases C71_numbers (2 ^ 63) with h | h
  · exfalso
    unfold evalRat at h
    rw [hn, if_neg (by decide)] at h
    unfold ratText posText at h
    rw [if_neg (by norm_num), if_pos hd] at h
    rw [parseReal_other] at h
    · cases h
    · rintro ⟨t, ht⟩
      obtain ⟨c, cs, hc⟩ := List.exists_cons_of_ne_nil (natText_ne_nil ((2 : ℚ) ^ 63).num.natAbs)
      obtain ⟨d, hd, hcd⟩ := natText_dig ((2 : ℚ) ^ 63).num.natAbs c (by rw [hc]; exact List.mem_cons_self)
      rw [hc] at ht
      simp at ht
      exact (digitChar_spec d hd).2.2.2.2.2.2.2.2 (hcd.symm.trans ht.1.symm)
  · exact h

/-- The full property fails. -/
theorem C71_not_full : ¬ C71_full := by
  intro h
  have := h.2 (2 ^ 63)
  rw [C71_integers_not_full] at this
  cases this

/-- Its first part fails, too: constants inside of quantifiers are listed although they occur in what was evaluated. -/
theorem C71_quantifiers_not_full : ¬ ∀ (model : List String) (as : List Access) (n : String),
    n ∈ unaccessed model as ↔ n ∈ model ∧ ∀ a ∈ as, a.ok = true → ∀ e ∈ a.asts, ¬ Ast.Mentions n e := by
  intro h
  have h1 := (h ["x"] [⟨[.other [.const "x"]], true⟩] "x").1 (by decide)
  exact h1.2 _ List.mem_cons_self rfl _ List.mem_cons_self (by simp [Ast.Mentions, Ast.MentionsIn])

end Caesar.Smt
