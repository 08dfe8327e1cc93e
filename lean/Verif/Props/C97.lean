import Verif.Driver.Instantiation
import Verif.Props.C88

/-!
# C97: Quantifiers are instantiated by the chosen heuristics
-/

namespace Caesar.Driver.Query

/-! ## Specification -/

/-- The documentation of the option (`src/driver/commands/options.rs:132-142`): is e-matching used? -/
def QuantInst.saysEmatching : QuantInst → Prop
  | .all => True
  | .ematching => True
  | .mbqi => False
  | .none => False

/-- The documentation of the option: is model-based instantiation used? -/
def QuantInst.saysMbqi : QuantInst → Prop
  | .all => True
  | .ematching => False
  | .mbqi => True
  | .none => False

/-- The quantifiers of the encodings of infima and suprema. -/
def Quantifier.IsExtremum : Quantifier → Prop
  | .extremum _ _ => True
  | _ => False

/-- The axioms of a function whose name starts with a text. -/
def Quantifier.IsFuncWith (start : FText) : Quantifier → Prop
  | .func f _ => start <+: f
  | _ => False

/-- The full claim: for all quantifiers, exactly the heuristics in the documentation of the option are used. -/
def C97_full : Prop := ∀ (o : Z3Options) (q : Quantifier), (usesEmatching (z3Params o) = true ↔ o.quant.saysEmatching) ∧ (usesMbqi (z3Params o) q = true ↔ o.quant.saysMbqi)

/-! ## Lemmas -/

theorem lookup_append {k : FText} (a b : Params) : (a ++ b).lookup k = (a.lookup k).or (b.lookup k) := by
  induction a with
  | nil => simp
  | cons e a ih =>
    obtain ⟨k', v⟩ := e
    by_cases h : k = k'
    · subst h; simp [List.lookup]
    · have hb : (k == k') = false := by simpa using h
      simp [List.lookup, hb, ih]

theorem lookup_if {k : FText} (b : Bool) (ps : Params) (h : ps.lookup k = none) : (if b then ps else []).lookup k = none := by
  cases b <;> simp [h]

theorem lookup_elim {α : Type} {k : FText} (x : Option α) (f : α → Params) (h : ∀ a, (f a).lookup k = none) : (x.elim [] f).lookup k = none := by
  cases x <;> simp [h]

theorem lookup_single {k k' v : FText} (h : (k == k') = false) : ([(k', v)] : Params).lookup k = none := by simp [List.lookup, h]

theorem mbqiId_lookup (o : Z3Options) : (z3Params o).lookup "smt.mbqi.id".toList =
    match o.quant with
    | .ematching => some "mbqi_".toList
    | .none => some "mbqi_".toList
    | _ => none := by
  unfold z3Params
  simp only [lookup_append]
  rw [lookup_single (by decide), lookup_if _ _ (by decide), lookup_elim _ _ (fun _ => lookup_single (by decide)), lookup_if _ _ (by decide), lookup_if _ _ (by decide),
    lookup_elim _ _ (fun _ => lookup_single (by decide)), lookup_elim _ _ (fun _ => lookup_single (by decide))]
  cases o.quant <;> decide

theorem ematching_lookup (o : Z3Options) : (z3Params o).lookup "smt.ematching".toList =
    match o.quant with
    | .mbqi => some "false".toList
    | .none => some "false".toList
    | _ => none := by
  unfold z3Params
  simp only [lookup_append]
  rw [lookup_single (by decide), lookup_if _ _ (by decide), lookup_elim _ _ (fun _ => lookup_single (by decide)), lookup_if _ _ (by decide), lookup_if _ _ (by decide),
    lookup_elim _ _ (fun _ => lookup_single (by decide)), lookup_elim _ _ (fun _ => lookup_single (by decide))]
  cases o.quant <;> decide

/-- No axiom name has a start in common with the prefix. -/
theorem prefix_append {p f t : FText} (h : p <+: f ++ t) : p <+: f ∨ f <+: p := by
  rcases Nat.le_total p.length f.length with hl | hl
  · exact .inl ((List.prefix_append_right_inj []).1 (by simpa using List.prefix_of_prefix_length_le h (List.prefix_append f t) hl))
  · exact .inr (List.prefix_of_prefix_length_le (List.prefix_append f t) h hl)

theorem func_prefix (f : FText) (a : FuncAxiom) : "mbqi_".toList <+: f ++ a.text ↔ "mbqi_".toList <+: f := by
  constructor
  · intro h
    rcases prefix_append h with h' | ⟨r, hr⟩
    · exact h'
    · obtain ⟨r', hr'⟩ := h
      rw [← hr, List.append_assoc] at hr'
      have hr' := List.append_cancel_left hr'
      cases r with
      | nil => rw [List.append_nil] at hr; rw [hr]; exact List.prefix_rfl
      | cons c r =>
        have hc : c = '(' := by
          cases a <;> exact (List.cons.inj hr').1
        subst hc
        have : '(' ∈ "mbqi_".toList := by rw [← hr]; simp
        exact absurd this (by decide)
  · exact fun h => h.trans (List.prefix_append _ _)

/-- Which ids have the prefix. -/
theorem id_prefix (q : Quantifier) : (match q.id with | some t => List.isPrefixOf "mbqi_".toList t | none => List.isEmpty "mbqi_".toList) = true ↔
    q.IsExtremum ∨ q.IsFuncWith "mbqi_".toList := by
  cases q with
  | bool s => simp [Quantifier.id, Quantifier.meta, QMeta.qid, Quantifier.IsExtremum, Quantifier.IsFuncWith]
  | extremum s p => simp [Quantifier.id, Quantifier.meta, QMeta.qid, Quantifier.IsExtremum]
  | func f a =>
    have : (Quantifier.func f a).id = some (f ++ a.text) := by simp [Quantifier.id, Quantifier.meta, QMeta.qid]
    rw [this]
    simp only [List.isPrefixOf_iff_prefix, func_prefix, Quantifier.IsExtremum, Quantifier.IsFuncWith, false_or]
  | literal s => simp [Quantifier.id, Quantifier.meta, QMeta.qid, Quantifier.IsExtremum, Quantifier.IsFuncWith]
  | listEq => simp [Quantifier.id, Quantifier.meta, QMeta.qid, Quantifier.IsExtremum, Quantifier.IsFuncWith]
  | existsForall => simp [Quantifier.id, Quantifier.meta, Quantifier.IsExtremum, Quantifier.IsFuncWith]

/-! ## Theorems -/

/-- E-matching is used exactly if the documentation says so. -/
theorem C97_ematching (o : Z3Options) : usesEmatching (z3Params o) = true ↔ o.quant.saysEmatching := by
  unfold usesEmatching
  rw [ematching_lookup]
  cases o.quant <;> simp [QuantInst.saysEmatching]

/-- Model-based instantiation is used exactly for the documented modes, for infima and suprema, and for the axioms of functions whose names start with `mbqi_`. -/
theorem C97_exact (o : Z3Options) (q : Quantifier) : usesMbqi (z3Params o) q = true ↔ o.quant.saysMbqi ∨ q.IsExtremum ∨ q.IsFuncWith "mbqi_".toList := by
  unfold usesMbqi
  rw [mbqiId_lookup, ← id_prefix]
  cases o.quant
  · exact ⟨fun _ => .inl trivial, fun _ => rfl⟩
  · exact ⟨.inr, fun h => h.elim False.elim id⟩
  · exact ⟨fun _ => .inl trivial, fun _ => rfl⟩
  · exact ⟨.inr, fun h => h.elim False.elim id⟩

/-- For all other quantifiers, exactly the heuristics of the documentation are used. -/
theorem C97_partial (o : Z3Options) (q : Quantifier) (h : ¬ q.IsExtremum) (h' : ¬ q.IsFuncWith "mbqi_".toList) :
    (usesEmatching (z3Params o) = true ↔ o.quant.saysEmatching) ∧ (usesMbqi (z3Params o) q = true ↔ o.quant.saysMbqi) := by
  refine ⟨C97_ematching o, ?_⟩
  rw [C97_exact]
  exact ⟨fun hm => hm.elim id fun hm => hm.elim (absurd · h) (absurd · h'), .inl⟩

/-- Infima and suprema are instantiated in every mode, by models ("otherwise they never work", `src/smt/translate_exprs.rs:612-613`). -/
theorem C97_extremum (o : Z3Options) (s : QSpan) (p : ExtPart) : usesMbqi (z3Params o) (.extremum s p) = true :=
  (C97_exact o _).2 (.inr (.inl trivial))

/-- The name of a function of the program decides: with e-matching only, the axioms of a function are also instantiated by models exactly if its name starts with `mbqi_`. -/
theorem C97_names (o : Z3Options) (h : o.quant = .ematching) (f : FText) (a : FuncAxiom) : usesMbqi (z3Params o) (.func f a) = true ↔ "mbqi_".toList <+: f := by
  rw [C97_exact, h]
  simp [QuantInst.saysMbqi, Quantifier.IsExtremum, Quantifier.IsFuncWith]

theorem C97_not_full : ¬ C97_full := by
  intro h
  have := (h ⟨false, none, .none, false, false, none, none⟩ (.extremum ⟨1, 0, 3, .parser⟩ .invariant)).2
  rw [C97_exact] at this
  exact (this.1 (.inr (.inl trivial)))

/-! ## The ids -/

theorem kind_take (k : SpanKind) (r : FText) (h : k ≠ .parser) : (k.text ++ r).take 2 = k.text.take 2 := by
  rw [List.take_append_of_le_length]
  cases k <;> first | exact absurd rfl h | decide

theorem kind_head (k : SpanKind) (r : FText) (h : k ≠ .parser) : ∃ c, (k.text ++ r).head? = some c ∧ ¬ ('0' ≤ c ∧ c ≤ '9') := by
  cases k <;> first | exact absurd rfl h | exact ⟨_, rfl, by decide⟩

theorem nat_head (n : ℕ) (r : FText) : ∃ c, (Smt.natText n ++ r).head? = some c ∧ ('0' ≤ c ∧ c ≤ '9') := by
  obtain ⟨d, hd, t, ht⟩ := Smt.natText_head n
  exact ⟨Smt.digitChar d, by rw [ht]; rfl, (Smt.digitChar_spec d hd).1⟩

theorem kind_eq {k k' : SpanKind} {n n' : ℕ} {r r' : FText} (h : k.text ++ (Smt.natText n ++ r) = k'.text ++ (Smt.natText n' ++ r')) : k = k' := by
  by_cases hk : k = .parser
  · by_cases hk' : k' = .parser
    · rw [hk, hk']
    · obtain ⟨c, h1, h2⟩ := kind_head k' (Smt.natText n' ++ r') hk'
      obtain ⟨c', h3, h4⟩ := nat_head n r
      subst hk
      rw [← h, show SpanKind.parser.text = [] from rfl, List.nil_append, h3] at h1
      exact absurd (Option.some.inj h1 ▸ h4) h2
  · by_cases hk' : k' = .parser
    · obtain ⟨c, h1, h2⟩ := kind_head k (Smt.natText n ++ r) hk
      obtain ⟨c', h3, h4⟩ := nat_head n' r'
      subst hk'
      rw [h, show SpanKind.parser.text = [] from rfl, List.nil_append, h3] at h1
      exact absurd (Option.some.inj h1 ▸ h4) h2
    · have h := congrArg (List.take 2) h
      rw [kind_take _ _ hk, kind_take _ _ hk'] at h
      revert h
      cases k <;> cases k' <;> intro h <;> first | rfl | exact absurd h (by decide)

/-- Two Boolean quantifiers of programs have the same id exactly if they have the same offsets and variants. The file is not in the id. -/
theorem C97_ids (s s' : QSpan) : (Quantifier.bool s).id = (Quantifier.bool s').id ↔ s.start = s'.start ∧ s.stop = s'.stop ∧ s.kind = s'.kind := by
  have hid : ∀ s : QSpan, (Quantifier.bool s).id = some ("span".toList ++ s.text) := fun s => by simp [Quantifier.id, Quantifier.meta, QMeta.qid]
  rw [hid, hid]
  constructor
  · intro h
    have h := List.append_cancel_left (Option.some.inj h)
    unfold QSpan.text at h
    simp only [List.append_assoc] at h
    have hk := kind_eq h
    rw [hk] at h
    have h := List.append_cancel_left h
    obtain ⟨h1, h2⟩ := Smt.read_nat (Smt.nonDigit_cons (by decide) _) (Smt.nonDigit_cons (by decide) _) h
    exact ⟨h1, Smt.natText_injective (List.cons.inj h2).2, hk⟩
  · rintro ⟨h1, h2, h3⟩
    simp [QSpan.text, h1, h2, h3]

/-- Quantifiers of different files can have the same id. -/
theorem C97_not_files : ¬ ∀ s s' : QSpan, (Quantifier.bool s).id = (Quantifier.bool s').id → s = s' := by
  intro h
  have := h ⟨1, 0, 3, .parser⟩ ⟨2, 0, 3, .parser⟩ ((C97_ids _ _).2 ⟨rfl, rfl, rfl⟩)
  exact absurd this (by decide)

/-- The kinds of quantifiers that can be told apart by their ids. -/
inductive Origin where
  | program | extremum (part : ExtPart) | axioms | lists | solver
  deriving DecidableEq

/-- Where a quantifier is from. -/
def Quantifier.origin : Quantifier → Origin
  | .bool _ => .program
  | .extremum _ p => .extremum p
  | .func _ _ => .axioms
  | .literal _ => .axioms
  | .listEq => .lists
  | .existsForall => .solver

/-- The last characters of texts decide. -/
theorem ne_of_last {a b : FText} (h : a.getLast? ≠ b.getLast?) : a ≠ b := fun e => h (by rw [e])

theorem last_bool (s : QSpan) : ∃ t c, (Quantifier.bool s).id = some t ∧ t.getLast? = some c ∧ Smt.IsDig c := by
  refine ⟨"span".toList ++ s.text, (Smt.natText s.stop).getLast (Smt.natText_ne_nil _), by simp [Quantifier.id, Quantifier.meta, QMeta.qid], ?_, Smt.natText_dig _ _ (List.getLast_mem _)⟩
  unfold QSpan.text
  rw [show "span".toList ++ (s.kind.text ++ Smt.natText s.start ++ '-' :: Smt.natText s.stop) = ("span".toList ++ s.kind.text ++ Smt.natText s.start ++ ['-']) ++ Smt.natText s.stop by simp]
  rw [List.getLast?_append_of_ne_nil _ (Smt.natText_ne_nil _), List.getLast?_eq_some_getLast (Smt.natText_ne_nil _)]

theorem last_axioms (q : Quantifier) (h : q.origin = .axioms) : ∃ t, q.id = some t ∧ t.getLast? = some ')' := by
  cases q with
  | func f a =>
    refine ⟨f ++ a.text, by simp [Quantifier.id, Quantifier.meta, QMeta.qid], ?_⟩
    have : a.text ≠ [] := by cases a <;> decide
    rw [List.getLast?_append_of_ne_nil _ this]
    cases a <;> decide
  | literal s =>
    refine ⟨"Lit".toList ++ s ++ "(definitional)".toList, by simp [Quantifier.id, Quantifier.meta, QMeta.qid], ?_⟩
    rw [List.getLast?_append_of_ne_nil _ (by decide)]
    decide
  | _ => cases h

theorem last_lists : ∃ t, Quantifier.listEq.id = some t ∧ t.getLast? = some 'q' := ⟨"list_eq".toList, by decide, by decide⟩

/-- The id of a quantifier of an infimum or a supremum ends with a line break. -/
theorem C97_line_break (s : QSpan) (p : ExtPart) : ∃ t, (Quantifier.extremum s p).id = some (t ++ ['\n']) :=
  ⟨"mbqi_".toList ++ ("span".toList ++ s.text) ++ ('_' :: p.text), by simp [Quantifier.id, Quantifier.meta, QMeta.qid]⟩

theorem extremum_part {s s' : QSpan} {p p' : ExtPart} (h : (Quantifier.extremum s p).id = (Quantifier.extremum s' p').id) : p = p' := by
  have e : ∀ (s : QSpan) (p : ExtPart), (Quantifier.extremum s p).id = some (("mbqi_".toList ++ ("span".toList ++ s.text)) ++ ('_' :: p.text ++ ['\n'])) := fun s p => by
    simp [Quantifier.id, Quantifier.meta, QMeta.qid]
  rw [e, e] at h
  have tk : ∀ (x : FText) (p : ExtPart), ((x ++ ('_' :: p.text ++ ['\n'])).reverse).take 8 = ('_' :: p.text ++ ['\n']).reverse.take 8 := by
    intro x p
    rw [List.reverse_append, List.take_append_of_le_length]
    cases p <;> decide
  have h := congrArg (fun t => (List.reverse t).take 8) (Option.some.inj h)
  simp only [tk] at h
  revert h
  cases p <;> cases p' <;> intro h <;> first | rfl | exact absurd h (by decide)

/-- Different kinds of quantifiers have different ids. -/
theorem C97_origin (q q' : Quantifier) (h : q.id = q'.id) : q.origin = q'.origin := by
  have dig : ∀ c, Smt.IsDig c → c ≠ ')' ∧ c ≠ 'q' ∧ c ≠ '\n' := by
    rintro c ⟨d, hd, rfl⟩
    revert d
    decide
  -- the class of the last character
  have cls : ∀ q : Quantifier, (q.origin = .solver ∧ q.id = none) ∨ (∃ t c, q.id = some t ∧ t.getLast? = some c ∧
      ((q.origin = .program ∧ Smt.IsDig c) ∨ ((∃ s p, q = .extremum s p) ∧ c = '\n') ∨ (q.origin = .axioms ∧ c = ')') ∨ (q.origin = .lists ∧ c = 'q'))) := by
    intro q
    cases q with
    | bool s => obtain ⟨t, c, h1, h2, h3⟩ := last_bool s; exact .inr ⟨t, c, h1, h2, .inl ⟨rfl, h3⟩⟩
    | extremum s p => obtain ⟨t, h1⟩ := C97_line_break s p; exact .inr ⟨_, '\n', h1, by simp, .inr (.inl ⟨⟨s, p, rfl⟩, rfl⟩)⟩
    | func f a => obtain ⟨t, h1, h2⟩ := last_axioms (.func f a) rfl; exact .inr ⟨t, _, h1, h2, .inr (.inr (.inl ⟨rfl, rfl⟩))⟩
    | literal s => obtain ⟨t, h1, h2⟩ := last_axioms (.literal s) rfl; exact .inr ⟨t, _, h1, h2, .inr (.inr (.inl ⟨rfl, rfl⟩))⟩
    | listEq => obtain ⟨t, h1, h2⟩ := last_lists; exact .inr ⟨t, _, h1, h2, .inr (.inr (.inr ⟨rfl, rfl⟩))⟩
    | existsForall => exact .inl ⟨rfl, rfl⟩
  rcases cls q with ⟨ho, hi⟩ | ⟨t, c, hi, hl, hc⟩ <;> rcases cls q' with ⟨ho', hi'⟩ | ⟨t', c', hi', hl', hc'⟩
  · rw [ho, ho']
  · rw [hi, hi'] at h; cases h
  · rw [hi, hi'] at h; cases h
  · have ht : t = t' := by rw [hi, hi'] at h; exact Option.some.inj h
    subst ht
    rw [hl] at hl'
    obtain rfl := Option.some.inj hl'
    rcases hc with ⟨ho, hd⟩ | ⟨⟨s, p, rfl⟩, rfl⟩ | ⟨ho, rfl⟩ | ⟨ho, rfl⟩ <;> rcases hc' with ⟨ho', hd'⟩ | ⟨⟨s', p', rfl⟩, hn⟩ | ⟨ho', hn⟩ | ⟨ho', hn⟩
    · rw [ho, ho']
    · exact absurd hn (dig _ hd).2.2
    · exact absurd hn (dig _ hd).1
    · exact absurd hn (dig _ hd).2.1
    · exact absurd rfl (dig _ hd').2.2
    · rw [show (Quantifier.extremum s p).origin = .extremum p from rfl, extremum_part h]; rfl
    · exact absurd hn (by decide)
    · exact absurd hn (by decide)
    · exact absurd rfl (dig _ hd').1
    · exact absurd hn (by decide)
    · rw [ho, ho']
    · exact absurd hn (by decide)
    · exact absurd rfl (dig _ hd').2.1
    · exact absurd hn (by decide)
    · exact absurd hn (by decide)
    · rw [ho, ho']

/-- The axiom of a function `LitInt` has the id of the axiom of the literal marker for integers. -/
theorem C97_not_axioms : (Quantifier.func "LitInt".toList .definitional).id = (Quantifier.literal "Int".toList).id := by decide

/-! ## Examples -/

/-- The options with e-matching only. -/
def exOptions : Z3Options := ⟨false, none, .ematching, false, false, none, some 3000⟩

example : (Quantifier.extremum ⟨1, 12, 15, .vc⟩ .glbInner).id = some "mbqi_spanvc/12-15_extremum_glb_inner\n".toList := by
  have h : ∀ d < 10, Smt.natText (10 + d) = ['1', Smt.digitChar d] := by
    intro d hd
    rw [Smt.natText, if_neg (by omega), Smt.natText_small (by omega), show (10 + d) / 10 = 1 by omega, show (10 + d) % 10 = d by omega]
    rfl
  show some (_ ++ ("span".toList ++ ("vc/".toList ++ Smt.natText (10 + 2) ++ '-' :: Smt.natText (10 + 5))) ++ _) = _
  rw [h 2 (by decide), h 5 (by decide)]
  decide

example : usesMbqi (z3Params exOptions) (.func "exp".toList .definitional) = false ∧ usesMbqi (z3Params exOptions) (.func "mbqi_exp".toList .definitional) = true := by
  constructor
  · rw [Bool.eq_false_iff, Ne, C97_names _ rfl]; decide
  · rw [C97_names _ rfl]; decide

example : ¬ (Quantifier.bool ⟨1, 12, 15, .vc⟩).IsExtremum ∧ ¬ (Quantifier.func "exp".toList .computation).IsFuncWith "mbqi_".toList := by
  constructor
  · exact fun h => h
  · show ¬ (_ <+: _)
    decide

end Caesar.Driver.Query
