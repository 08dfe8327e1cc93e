import Verif.Smt.Symbols

/-!
# C95: each symbol of a query stands for one declaration
-/

namespace Caesar
open Symb

/-! ## Lists of characters and digits -/

theorem split_last {c : Char} {a a' b b' : List Char} (h : a ++ c :: b = a' ++ c :: b') (hb : c ∉ b) (hb' : c ∉ b') : a = a' ∧ b = b' := by
  rcases List.append_eq_append_iff.mp h with ⟨r, h1, h2⟩ | ⟨r, h1, h2⟩
  · cases r with
    | nil =>
      simp only [List.append_nil, List.nil_append, List.cons.injEq, true_and] at h1 h2
      exact ⟨h1.symm, h2⟩
    | cons d r =>
      simp only [List.cons_append, List.cons.injEq] at h2
      exact absurd (by rw [h2.2]; simp) hb
  · cases r with
    | nil =>
      simp only [List.append_nil, List.nil_append, List.cons.injEq, true_and] at h1 h2
      exact ⟨h1, h2.symm⟩
    | cons d r =>
      simp only [List.cons_append, List.cons.injEq] at h2
      exact absurd (by rw [h2.2]; simp) hb'

theorem digits_mem {n : Nat} {c : Char} (h : c ∈ (toString n).toList) : c.isDigit = true := by
  have h' : c ∈ (Nat.repr n).toList := h
  rw [Nat.toList_repr] at h'
  exact Nat.isDigit_of_mem_toDigits (by decide) (by decide) h'

theorem digits_not_mem {n : Nat} {c : Char} (hc : c.isDigit = false) : c ∉ (toString n).toList := fun h => by
  rw [digits_mem h] at hc
  cases hc

theorem numbered_sep {c : Char} (hc : c.isDigit = false) {a b : String} {i j : Nat}
    (h : a ++ String.singleton c ++ toString i = b ++ String.singleton c ++ toString j) : a = b ∧ i = j := by
  have h2 := congrArg String.toList h
  simp only [String.toList_append, String.toList_singleton, List.append_assoc, List.cons_append, List.nil_append] at h2
  obtain ⟨h3, h4⟩ := split_last h2 (digits_not_mem hc) (digits_not_mem hc)
  exact ⟨String.ext h3, TyCtx.toString_inj (String.ext h4)⟩

/-! ## The table of symbols -/

/-- What the table of symbols promises according to its comment: whichever identifiers are asked for, different ones have different symbols. -/
def C95_full_symbols : Prop :=
  ∀ (xs : List Ident) (x y : Ident) (n : String), (Symbolizer.new.run xs).symbols x = some n → (Symbolizer.new.run xs).symbols y = some n → x = y

/-- `f`, another `f`, and `f_1`. The second and the third identifier have the symbol `f_1`. -/
theorem C95_not_symbols : ¬ C95_full_symbols := fun h =>
  absurd (h [⟨"f", 1⟩, ⟨"f", 2⟩, ⟨"f_1", 3⟩] ⟨"f", 2⟩ ⟨"f_1", 3⟩ "f_1" (by decide) (by decide)) (by decide)

/-- The tables after the identifiers in `D` were declared, whose names are different. -/
structure Inv (t : Tables) (D : Ident → Prop) : Prop where
  symbols : ∀ x, t.symbolizer.symbols x ≠ none → D x
  counter : ∀ n, (∀ x, D x → x.name ≠ n) → t.symbolizer.counter n = 0
  sorts : ∀ x, t.sorts x ≠ none → D x
  functions : ∀ x d, t.functions x = some d → D x ∧ d.name = x.name
  recs : ∀ x d, t.recs x = some d → D x ∧ d.name = x.name

theorem Inv.none {t : Tables} {D : Ident → Prop} (h : Inv t D) {x : Ident} (hx : ∀ y, D y → y.name ≠ x.name) :
    t.symbolizer.symbols x = .none ∧ t.sorts x = .none ∧ t.functions x = .none ∧ t.recs x = .none := by
  have hd : ¬ D x := fun hd => hx x hd rfl
  refine ⟨?_, ?_, ?_, ?_⟩
  · by_contra hc
    exact hd (h.symbols x hc)
  · by_contra hc
    exact hd (h.sorts x hc)
  · cases hf : t.functions x with
    | none => rfl
    | some d => exact absurd (h.functions x d hf).1 hd
  · cases hf : t.recs x with
    | none => rfl
    | some d => exact absurd (h.recs x d hf).1 hd

theorem Inv.get {t : Tables} {D : Ident → Prop} (h : Inv t D) {x : Ident} (hx : ∀ y, D y → y.name ≠ x.name) :
    t.symbolizer.get x = (x.name, ⟨Function.update t.symbolizer.counter x.name 1, Function.update t.symbolizer.symbols x (some x.name)⟩) := by
  unfold Symbolizer.get
  rw [(h.none hx).1]
  simp only [h.counter x.name hx, numbered]
  simp

theorem Inv.sym {t : Tables} {D : Ident → Prop} (h : Inv t D) {x : Ident} :
    (∀ y, Function.update t.symbolizer.symbols x (some x.name) y ≠ Option.none → y = x ∨ D y) ∧
    ∀ n, (∀ y, y = x ∨ D y → y.name ≠ n) → Function.update t.symbolizer.counter x.name 1 n = 0 := by
  constructor
  · intro y hy
    by_cases hyx : y = x
    · exact .inl hyx
    · rw [Function.update_of_ne hyx] at hy
      exact .inr (h.symbols y hy)
  · intro n hn
    rw [Function.update_of_ne (fun hc => hn x (.inl rfl) hc.symm)]
    exact h.counter n fun y hy => hn y (.inr hy)

theorem addSort_ok {t : Tables} {D : Ident → Prop} (h : Inv t D) {x : Ident} (hx : ∀ y, D y → y.name ≠ x.name) :
    ∃ t', t.addSort x = some t' ∧ Inv t' (fun y => y = x ∨ D y) ∧ t'.sorts = Function.update t.sorts x (some (.uninterp x.name)) ∧
      t'.functions = t.functions ∧ t'.recs = t.recs := by
  unfold Tables.addSort
  rw [h.get hx, (h.none hx).2.1]
  refine ⟨_, rfl, ⟨h.sym.1, h.sym.2, ?_, fun y d hy => ?_, fun y d hy => ?_⟩, rfl, rfl, rfl⟩
  · intro y hy
    by_cases hyx : y = x
    · exact .inl hyx
    · simp only [Function.update_of_ne hyx] at hy
      exact .inr (h.sorts y hy)
  · exact ⟨.inr (h.functions y d hy).1, (h.functions y d hy).2⟩
  · exact ⟨.inr (h.recs y d hy).1, (h.recs y d hy).2⟩

theorem addFunction_ok {t : Tables} {D : Ident → Prop} (h : Inv t D) {x : Ident} (hx : ∀ y, D y → y.name ≠ x.name) (dom : List ZSort) (r : ZSort) :
    ∃ t', t.addFunction x dom r = some t' ∧ Inv t' (fun y => y = x ∨ D y) ∧ t'.sorts = t.sorts ∧
      t'.functions = Function.update t.functions x (some ⟨x.name, dom, r⟩) ∧ t'.recs = t.recs := by
  unfold Tables.addFunction
  rw [h.get hx, (h.none hx).2.2.1]
  refine ⟨_, rfl, ⟨h.sym.1, h.sym.2, fun y hy => .inr (h.sorts y hy), fun y d hy => ?_, fun y d hy => ?_⟩, rfl, rfl, rfl⟩
  · by_cases hyx : y = x
    · subst hyx
      simp only [Function.update_self, Option.some.injEq] at hy
      exact ⟨.inl rfl, by rw [← hy]⟩
    · simp only [Function.update_of_ne hyx] at hy
      exact ⟨.inr (h.functions y d hy).1, (h.functions y d hy).2⟩
  · exact ⟨.inr (h.recs y d hy).1, (h.recs y d hy).2⟩

theorem addRec_ok {t : Tables} {D : Ident → Prop} (h : Inv t D) {x : Ident} (hx : ∀ y, D y → y.name ≠ x.name) (dom : List ZSort) (r : ZSort) :
    ∃ t', t.addRec x dom r = some t' ∧ Inv t' (fun y => y = x ∨ D y) ∧ t'.sorts = t.sorts ∧
      t'.functions = t.functions ∧ t'.recs = Function.update t.recs x (some ⟨x.name, dom, r⟩) := by
  unfold Tables.addRec
  rw [(h.none hx).2.2.2]
  refine ⟨_, rfl, ⟨fun y hy => .inr (h.symbols y hy), fun n hn => h.counter n fun y hy => hn y (.inr hy), fun y hy => .inr (h.sorts y hy), fun y d hy => ?_,
    fun y d hy => ?_⟩, rfl, rfl, rfl⟩
  · exact ⟨.inr (h.functions y d hy).1, (h.functions y d hy).2⟩
  · by_cases hyx : y = x
    · subst hyx
      simp only [Function.update_self, Option.some.injEq] at hy
      exact ⟨.inl rfl, by rw [← hy]⟩
    · simp only [Function.update_of_ne hyx] at hy
      exact ⟨.inr (h.recs y d hy).1, (h.recs y d hy).2⟩

theorem Inv.congr {t : Tables} {D D' : Ident → Prop} (h : Inv t D) (hd : ∀ x, D x ↔ D' x) : Inv t D' := by
  rwa [show D' = D from funext fun x => propext (hd x).symm]

theorem addSorts_ok (ds : List Ident) : ∀ {t : Tables} {D : Ident → Prop}, Inv t D → (∀ x ∈ ds, ∀ y, D y → y.name ≠ x.name) → (ds.map Ident.name).Nodup →
    ∃ t', t.addSorts ds = some t' ∧ Inv t' (fun y => y ∈ ds ∨ D y) ∧ (∀ d ∈ ds, t'.sorts d = some (.uninterp d.name)) ∧
      (∀ d, d ∉ ds → t'.sorts d = t.sorts d) ∧ t'.functions = t.functions ∧ t'.recs = t.recs := by
  induction ds with
  | nil => exact fun h _ _ => ⟨_, rfl, h.congr (by simp), by simp, fun _ _ => rfl, rfl, rfl⟩
  | cons x ds ih =>
    intro t D h hx hn
    simp only [List.map_cons, List.nodup_cons] at hn
    obtain ⟨t1, h1, hi1, hs1, hf1, hr1⟩ := addSort_ok h (hx x (by simp))
    have hx1 : ∀ z ∈ ds, ∀ y, y = x ∨ D y → y.name ≠ z.name := by
      rintro z hz y (rfl | hy)
      · exact fun hc => hn.1 (List.mem_map.mpr ⟨z, hz, hc.symm⟩)
      · exact hx z (by simp [hz]) y hy
    obtain ⟨t', h2, hi2, hs2, ho2, hf2, hr2⟩ := ih hi1 hx1 hn.2
    have hxd : x ∉ ds := fun hc => hn.1 (List.mem_map.mpr ⟨x, hc, rfl⟩)
    refine ⟨t', ?_, hi2.congr fun y => ?_, fun d hd => ?_, fun d hd => ?_, hf2.trans hf1, hr2.trans hr1⟩
    · unfold Tables.addSorts
      rw [h1]
      exact h2
    · simp only [List.mem_cons]
      tauto
    · rcases List.mem_cons.mp hd with rfl | hd
      · rw [ho2 d hxd, hs1, Function.update_self]
      · exact hs2 d hd
    · simp only [List.mem_cons, not_or] at hd
      rw [ho2 d hd.2, hs1, Function.update_of_ne hd.1]

theorem addAll_ok (dom : List ZSort) (r : ZSort) (fs : List Ident) : ∀ {t : Tables} {D : Ident → Prop}, Inv t D →
    (∀ x ∈ fs, ∀ y, D y → y.name ≠ x.name) → (fs.map Ident.name).Nodup →
    ∃ t', t.addAll dom r fs = some t' ∧ Inv t' (fun y => y ∈ fs ∨ D y) ∧ t'.sorts = t.sorts ∧ t'.recs = t.recs ∧
      (∀ f ∈ fs, t'.functions f = some ⟨f.name, dom, r⟩) ∧ ∀ f, f ∉ fs → t'.functions f = t.functions f := by
  induction fs with
  | nil => exact fun h _ _ => ⟨_, rfl, h.congr (by simp), rfl, rfl, by simp, fun _ _ => rfl⟩
  | cons x fs ih =>
    intro t D h hx hn
    simp only [List.map_cons, List.nodup_cons] at hn
    obtain ⟨t1, h1, hi1, hso1, hs1, hr1⟩ := addFunction_ok h (hx x (by simp)) dom r
    have hx1 : ∀ z ∈ fs, ∀ y, y = x ∨ D y → y.name ≠ z.name := by
      rintro z hz y (rfl | hy)
      · exact fun hc => hn.1 (List.mem_map.mpr ⟨z, hz, hc.symm⟩)
      · exact hx z (by simp [hz]) y hy
    obtain ⟨t', h2, hi2, hso2, hr2, hs2, ho2⟩ := ih hi1 hx1 hn.2
    have hxd : x ∉ fs := fun hc => hn.1 (List.mem_map.mpr ⟨x, hc, rfl⟩)
    refine ⟨t', ?_, hi2.congr fun y => ?_, hso2.trans hso1, hr2.trans hr1, fun d hd => ?_, fun d hd => ?_⟩
    · unfold Tables.addAll
      rw [h1]
      exact h2
    · simp only [List.mem_cons]
      tauto
    · rcases List.mem_cons.mp hd with rfl | hd
      · rw [ho2 d hxd, hs1, Function.update_self]
      · exact hs2 d hd
    · simp only [List.mem_cons, not_or] at hd
      rw [ho2 d hd.2, hs1, Function.update_of_ne hd.1]

/-- The types of a function have sorts: the domains they mention are declared (this is the statement of C82 about dependencies), and there are no tuples. -/
def HasSorts (sorts : Ident → Option ZSort) (f : Fun) : Prop :=
  (tyToSort sorts f.output).isSome = true ∧ ∀ t ∈ f.inputs, (tyToSort sorts t).isSome = true

theorem funcDomain_some {sorts : Ident → Option ZSort} {f : Fun} (h : HasSorts sorts f) (fuel : Bool) : ∃ dom, funcDomain sorts f fuel = some dom := by
  have : ∀ ts : List STy, (∀ t ∈ ts, (tyToSort sorts t).isSome = true) → ∃ d, ts.mapM (tyToSort sorts) = some d := by
    intro ts
    induction ts with
    | nil => exact fun _ => ⟨[], rfl⟩
    | cons t ts ih =>
      intro ht
      obtain ⟨s, hs⟩ := Option.isSome_iff_exists.mp (ht t (by simp))
      obtain ⟨d, hd⟩ := ih fun u hu => ht u (by simp [hu])
      exact ⟨s :: d, by rw [List.mapM_cons, hs, hd]; rfl⟩
  obtain ⟨d, hd⟩ := this f.inputs h.2
  exact ⟨_, by rw [funcDomain, hd]; rfl⟩

/-- The sorts of the parameters: those of the types, in their order, after the one for fuel if there is one. -/
def Parameters (sorts : Ident → Option ZSort) (f : Fun) (fuel : Bool) (dom : List ZSort) : Prop :=
  ∃ ins, List.Forall₂ (fun t s => tyToSort sorts t = some s) f.inputs ins ∧ dom = (if fuel then [.datatype "$Fuel"] else []) ++ ins

theorem funcDomain_parameters {sorts : Ident → Option ZSort} {f : Fun} {fuel : Bool} {dom : List ZSort} (h : funcDomain sorts f fuel = some dom) :
    Parameters sorts f fuel dom := by
  have key : ∀ (ts : List STy) (d : List ZSort), ts.mapM (tyToSort sorts) = some d → List.Forall₂ (fun t s => tyToSort sorts t = some s) ts d := by
    intro ts
    induction ts with
    | nil => intro d hd; cases hd; exact .nil
    | cons t ts ih =>
      intro d hd
      rw [List.mapM_cons] at hd
      obtain ⟨s, hs, hd⟩ := Option.bind_eq_some_iff.mp hd
      obtain ⟨d', hd', hd⟩ := Option.bind_eq_some_iff.mp hd
      cases hd
      exact .cons hs (ih d' hd')
  obtain ⟨d, hd, rfl⟩ := Option.map_eq_some_iff.mp h
  exact ⟨d, key _ _ hd, by cases fuel <;> rfl⟩

/-- The declaration that a copy of a function has: its own name and the sorts of the types of the function. -/
def Declared (e : Enc) (t : Tables) (f : Fun) (x : Ident) : Prop :=
  ∃ dom range, Parameters t.sorts f (e.fuelled f.name) dom ∧ tyToSort t.sorts f.output = some range ∧ t.lookup e f x = some ⟨x.name, dom, range⟩

theorem addFun_ok (var : Nat → Nat) (e : Enc) {t : Tables} {D : Ident → Prop} {f : Fun} (h : Inv t D) (hs : HasSorts t.sorts f)
    (hx : ∀ x ∈ e.copies var f.name, ∀ y, D y → y.name ≠ x.name) (hn : ((e.copies var f.name).map Ident.name).Nodup) :
    ∃ t', t.addFun var e f = some t' ∧ Inv t' (fun y => y ∈ e.copies var f.name ∨ D y) ∧ t'.sorts = t.sorts ∧
      (∀ x ∈ e.copies var f.name, Declared e t' f x) ∧
      ∀ x, x ∉ e.copies var f.name → t'.functions x = t.functions x ∧ t'.recs x = t.recs x := by
  obtain ⟨r, hr⟩ := Option.isSome_iff_exists.mp hs.1
  obtain ⟨dom, hd⟩ := funcDomain_some hs (e.fuelled f.name)
  have hp := funcDomain_parameters hd
  have key : ∀ fs, fs = e.copies var f.name → (∀ g x, Tables.lookup e g f x = g.functions x) →
      ∃ t', t.addAll dom r fs = some t' ∧ Inv t' (fun y => y ∈ e.copies var f.name ∨ D y) ∧ t'.sorts = t.sorts ∧
        (∀ x ∈ e.copies var f.name, Declared e t' f x) ∧
        ∀ x, x ∉ e.copies var f.name → t'.functions x = t.functions x ∧ t'.recs x = t.recs x := by
    rintro fs rfl hl
    obtain ⟨t', h1, h2, h3, h4, h5, h6⟩ := addAll_ok dom r _ h hx hn
    exact ⟨t', h1, h2, h3, fun x hxm => ⟨dom, r, by rw [h3]; exact hp, by rw [h3]; exact hr, by rw [hl]; exact h5 x hxm⟩,
      fun x hxm => ⟨h6 x hxm, by rw [h4]⟩⟩
  unfold Tables.addFun
  rw [hr]
  cases e with
  | axiomatic =>
    obtain ⟨t', h1, h2⟩ := key [f.name] rfl fun _ _ => rfl
    refine ⟨t', ?_, h2⟩
    have hd : funcDomain t.sorts f false = some dom := hd
    simp only [Option.bind_some, hd]
    exact h1
  | recfun =>
    have hd : funcDomain t.sorts f false = some dom := hd
    simp only [Option.bind_some, hd]
    by_cases hb : f.hasBody = true
    · rw [if_pos hb]
      obtain ⟨t', h1, h2, h3, h4, h5⟩ := addRec_ok h (hx f.name (by simp [Enc.copies])) dom r
      refine ⟨t', h1, h2.congr fun y => by simp [Enc.copies], h3, fun x hxm => ?_, fun x hxm => ?_⟩
      · have : x = f.name := by simpa [Enc.copies] using hxm
        subst this
        refine ⟨dom, r, by rw [h3]; exact hp, by rw [h3]; exact hr, ?_⟩
        simp only [Tables.lookup, if_pos hb, h5, Function.update_self]
      · have : x ≠ f.name := by simpa [Enc.copies] using hxm
        rw [h4, h5, Function.update_of_ne this]
        exact ⟨rfl, rfl⟩
    · rw [if_neg hb]
      obtain ⟨t', h1, h2⟩ := key [f.name] rfl fun g x => by simp only [Tables.lookup, if_neg hb]
      exact ⟨t', h1, h2⟩
  | mono fuels max =>
    have hd : funcDomain t.sorts f false = some dom := hd
    simp only [Option.bind_some, hd]
    obtain ⟨t', h1, h2⟩ := key _ rfl fun _ _ => rfl
    exact ⟨t', h1, h2⟩
  | param fuels =>
    have hd : funcDomain t.sorts f (fuels f.name) = some dom := hd
    simp only [Option.bind_some, hd]
    obtain ⟨t', h1, h2⟩ := key [f.name] rfl fun _ _ => rfl
    exact ⟨t', h1, h2⟩

/-- All the identifiers that are declared for functions. -/
def copiesAll (var : Nat → Nat) (e : Enc) (fs : List Fun) : List Ident := fs.flatMap fun f => e.copies var f.name

theorem addFuns_ok (var : Nat → Nat) (e : Enc) (fs : List Fun) : ∀ {t : Tables} {D : Ident → Prop}, Inv t D → (∀ f ∈ fs, HasSorts t.sorts f) →
    (∀ x ∈ copiesAll var e fs, ∀ y, D y → y.name ≠ x.name) → ((copiesAll var e fs).map Ident.name).Nodup →
    ∃ t', t.addFuns var e fs = some t' ∧ Inv t' (fun y => y ∈ copiesAll var e fs ∨ D y) ∧ t'.sorts = t.sorts ∧
      (∀ f ∈ fs, ∀ x ∈ e.copies var f.name, Declared e t' f x) ∧
      ∀ x, x ∉ copiesAll var e fs → t'.functions x = t.functions x ∧ t'.recs x = t.recs x := by
  induction fs with
  | nil => exact fun h _ _ _ => ⟨_, rfl, h.congr (by simp [copiesAll]), rfl, by simp, fun _ _ => ⟨rfl, rfl⟩⟩
  | cons f fs ih =>
    intro t D h hs hx hn
    have hcons : copiesAll var e (f :: fs) = e.copies var f.name ++ copiesAll var e fs := by simp [copiesAll]
    rw [hcons] at hx hn ⊢
    rw [List.map_append, List.nodup_append] at hn
    obtain ⟨t1, h1, hi1, hs1, hd1, ho1⟩ := addFun_ok var e h (hs f (by simp)) (fun x hm => hx x (by simp [hm])) hn.1
    have hx1 : ∀ z ∈ copiesAll var e fs, ∀ y, y ∈ e.copies var f.name ∨ D y → y.name ≠ z.name := by
      rintro z hz y (hy | hy)
      · exact hn.2.2 _ (List.mem_map.mpr ⟨y, hy, rfl⟩) _ (List.mem_map.mpr ⟨z, hz, rfl⟩)
      · exact hx z (by simp [hz]) y hy
    obtain ⟨t', h2, hi2, hs2, hd2, ho2⟩ := ih hi1 (fun g hg => by rw [hs1]; exact hs g (by simp [hg])) hx1 hn.2.1
    refine ⟨t', ?_, hi2.congr fun y => ?_, hs2.trans hs1, fun g hg x hxm => ?_, fun x hxm => ?_⟩
    · unfold Tables.addFuns
      rw [h1]
      exact h2
    · simp only [List.mem_append]
      tauto
    · rcases List.mem_cons.mp hg with rfl | hg
      · obtain ⟨dom, r, e1, e2, e3⟩ := hd1 x hxm
        have hxc : x ∉ copiesAll var e fs := fun hc =>
          hn.2.2 _ (List.mem_map.mpr ⟨x, hxm, rfl⟩) _ (List.mem_map.mpr ⟨x, hc, rfl⟩) rfl
        refine ⟨dom, r, by rw [hs2]; exact e1, by rw [hs2]; exact e2, ?_⟩
        rw [← e3]
        unfold Tables.lookup
        rw [(ho2 x hxc).1, (ho2 x hxc).2]
      · exact hd2 g hg x hxm
    · simp only [List.mem_append, not_or] at hxm
      exact ⟨(ho2 x hxm.2).1.trans (ho1 x hxm.1).1, (ho2 x hxm.2).2.trans (ho1 x hxm.1).2⟩

/-! ## The names of the copies -/

/-- The names of programs (`src/front/parser/grammar.lalrpop:36-38`): only letters, digits, underscores and primes, and no digit or prime first. -/
def UserName (n : String) : Prop :=
  ∃ c cs, n.toList = c :: cs ∧ (c.isAlpha = true ∨ c = '_') ∧ ∀ d ∈ cs, d.isAlphanum = true ∨ d = '_' ∨ d = '\''

theorem UserName.not_mem {n : String} (h : UserName n) {c : Char} (h1 : c.isAlphanum = false) (h2 : c ≠ '_') (h3 : c ≠ '\'') : c ∉ n.toList := by
  obtain ⟨d, ds, e, hd, hds⟩ := h
  rw [e]
  intro hm
  rcases List.mem_cons.mp hm with rfl | hm
  · rcases hd with hd | hd
    · simp [Char.isAlphanum, hd] at h1
    · exact h2 hd
  · rcases hds c hm with hc | hc | hc
    · rw [h1] at hc
      cases hc
    · exact h2 hc
    · exact h3 hc

theorem withFuel_name {var : Nat → Nat} {f g : Ident} {i j : Nat} (h : (withFuel var f i).name = (withFuel var g j).name) : f.name = g.name ∧ i = j :=
  numbered_sep (c := '$') (by decide) h

theorem copies_name {var : Nat → Nat} {e : Enc} {f x : Ident} (h : x ∈ e.copies var f) : x = f ∨ ∃ k, x = withFuel var f k := by
  unfold Enc.copies at h
  split at h
  · split at h
    · obtain ⟨k, _, rfl⟩ := List.mem_map.mp h
      exact .inr ⟨k, rfl⟩
    · exact .inl (by simpa using h)
  · exact .inl (by simpa using h)

theorem withFuel_dollar {var : Nat → Nat} {f : Ident} {k : Nat} : '$' ∈ (withFuel var f k).name.toList := by
  simp [withFuel, String.toList_append]

theorem copies_disjoint {var : Nat → Nat} {e : Enc} {f g x y : Ident} (hf : UserName f.name) (hg : UserName g.name) (hx : x ∈ e.copies var f)
    (hy : y ∈ e.copies var g) (h : x.name = y.name) : f.name = g.name := by
  rcases copies_name hx with rfl | ⟨i, rfl⟩ <;> rcases copies_name hy with rfl | ⟨j, rfl⟩
  · exact h
  · exact absurd (by rw [h]; exact withFuel_dollar) (hf.not_mem (c := '$') (by decide) (by decide) (by decide))
  · exact absurd (by rw [← h]; exact withFuel_dollar) (hg.not_mem (c := '$') (by decide) (by decide) (by decide))
  · exact (withFuel_name h).1

theorem copies_nodup (var : Nat → Nat) (e : Enc) (f : Ident) : ((e.copies var f).map Ident.name).Nodup := by
  unfold Enc.copies
  split
  · split
    · rw [List.map_map]
      exact List.Nodup.map (fun i j hij => (withFuel_name (var := var) hij).2) List.nodup_range
    · simp
  · simp

theorem copiesAll_nodup (var : Nat → Nat) (e : Enc) (fs : List Fun) (hu : ∀ f ∈ fs, UserName f.name.name) (hn : (fs.map fun f => f.name.name).Nodup) :
    ((copiesAll var e fs).map Ident.name).Nodup := by
  induction fs with
  | nil => simp [copiesAll]
  | cons f fs ih =>
    simp only [List.map_cons, List.nodup_cons] at hn
    have hcons : copiesAll var e (f :: fs) = e.copies var f.name ++ copiesAll var e fs := by simp [copiesAll]
    rw [hcons, List.map_append, List.nodup_append]
    refine ⟨copies_nodup var e f.name, ih (fun g hg => hu g (by simp [hg])) hn.2, ?_⟩
    intro a ha b hb hab
    obtain ⟨x, hx, rfl⟩ := List.mem_map.mp ha
    obtain ⟨y, hy, rfl⟩ := List.mem_map.mp hb
    obtain ⟨g, hg, hy⟩ := List.mem_flatMap.mp hy
    exact hn.1 (List.mem_map.mpr ⟨g, hg, (copies_disjoint (hu f (by simp)) (hu g (by simp [hg])) hx hy hab).symm⟩)

/-! ## The sorts of types -/

/-- Unsigned numbers have the sorts of signed numbers. -/
def STy.erase : STy → STy
  | .uint => .int
  | .ureal => .real
  | .list t => .list (STy.erase t)
  | t => t

theorem escape_inj : ∀ {a b : List Char}, escape a = escape b → a = b
  | [], [], _ => rfl
  | [], d :: ds, h => by
    simp only [escape] at h
    split at h <;> cases h
  | c :: cs, [], h => by
    simp only [escape] at h
    split at h <;> cases h
  | c :: cs, d :: ds, h => by
    simp only [escape] at h
    split at h <;> split at h <;> simp only [List.cons.injEq] at h
    · rw [h.2.1, escape_inj h.2.2]
    · rename_i h1 h2
      exact absurd (.inr h.1.symm) h2
    · rename_i h1 h2
      exact absurd (.inr h.1) h1
    · rw [h.1, escape_inj h.2]

theorem quote_inj {a b : String} (h : quote a = quote b) : a = b := by
  unfold quote at h
  split at h <;> split at h
  · exact h
  · rename_i h1 h2
    rw [h] at h1
    simp [String.toList_append, simpleChar] at h1
  · rename_i h1 h2
    rw [← h] at h2
    simp [String.toList_append, simpleChar] at h2
  · have h2 := congrArg String.toList h
    simp only [String.toList_append, String.toList_ofList] at h2
    exact String.ext (escape_inj (List.append_cancel_left (List.append_cancel_right h2)))

/-- Names that are not those of Z3's sorts. -/
def NotBuiltin (n : String) : Prop := n ≠ "Bool" ∧ n ≠ "Int" ∧ n ≠ "Real" ∧ n ≠ "EUReal"

theorem quote_builtin {n m : String} (h : quote n = m) (hm : m.toList.all simpleChar = true) : n = m := by
  have : quote m = m := if_pos hm
  exact quote_inj (h.trans this.symm)

/-- What is known about the sorts of domains: they have the names of the domains, which are different and not those of types
(`src/front/resolve.rs:249-252` takes those for the built-in types). -/
structure DomSorts (sorts : Ident → Option ZSort) : Prop where
  named : ∀ d s, sorts d = some s → s = .uninterp d.name ∧ NotBuiltin d.name ∧ UserName d.name
  inj : ∀ d d', sorts d ≠ none → sorts d' ≠ none → d.name = d'.name → d = d'

/-- The sorts of types. -/
inductive GoodSort : ZSort → Prop where
  | bool : GoodSort .bool
  | int : GoodSort .int
  | real : GoodSort .real
  | eureal : GoodSort (.datatype "EUReal")
  | list {s : ZSort} : GoodSort s → GoodSort (listSort s)
  | domain {n : String} : NotBuiltin n → UserName n → GoodSort (.uninterp n)

theorem tyToSort_good {sorts : Ident → Option ZSort} (h : DomSorts sorts) : ∀ {t : STy} {s : ZSort}, tyToSort sorts t = some s → GoodSort s
  | .bool, _, rfl => .bool
  | .int, _, rfl => .int
  | .uint, _, rfl => .int
  | .real, _, rfl => .real
  | .ureal, _, rfl => .real
  | .eureal, _, rfl => .eureal
  | .list t, s, e => by
    simp only [tyToSort, Option.map_eq_some_iff] at e
    obtain ⟨s', hs, rfl⟩ := e
    exact .list (tyToSort_good h hs)
  | .domain d, s, e => by
    obtain ⟨rfl, h1, h2⟩ := h.named d s e
    exact .domain h1 h2

theorem listName_chars (s : ZSort) : '[' ∈ ("List[" ++ s.show ++ "]").toList := by
  simp [String.toList_append]

theorem listName_ne {s : ZSort} {n : String} (hn : '[' ∉ n.toList) : "List[" ++ s.show ++ "]" ≠ n := fun h => hn (h ▸ listName_chars s)

theorem UserName.bracket {n : String} (h : UserName n) : '[' ∉ n.toList := h.not_mem (by decide) (by decide) (by decide)

/-- Z3 prints different sorts of types differently. -/
theorem show_inj {s s' : ZSort} (h : GoodSort s) (h' : GoodSort s') (he : s.show = s'.show) : s = s' := by
  cases h with
  | bool | int | real | eureal =>
    cases h' <;> first
      | rfl
      | exact absurd he (by decide)
      | (rename_i hn hu
         have hq := quote_builtin he.symm (by decide)
         first
           | exact absurd hq hn.1
           | exact absurd hq hn.2.1
           | exact absurd hq hn.2.2.1
           | exact absurd hq hn.2.2.2)
      | (have hq := quote_builtin he.symm (by decide)
         exact absurd hq (listName_ne (by decide)))
  | list h =>
    cases h' with
    | bool | int | real | eureal => exact absurd (quote_builtin he (by decide)) (listName_ne (by decide))
    | list h' => exact congrArg ZSort.datatype (quote_inj he)
    | domain hn hu => exact absurd (quote_inj he) (listName_ne hu.bracket)
  | domain hn hu =>
    cases h' with
    | bool => exact absurd (quote_builtin he (by decide)) hn.1
    | int => exact absurd (quote_builtin he (by decide)) hn.2.1
    | real => exact absurd (quote_builtin he (by decide)) hn.2.2.1
    | eureal => exact absurd (quote_builtin he (by decide)) hn.2.2.2
    | list h' => exact absurd (quote_inj he).symm (listName_ne hu.bracket)
    | domain hn' hu' => exact congrArg ZSort.uninterp (quote_inj he)

theorem listSort_inj {s s' : ZSort} (h : GoodSort s) (h' : GoodSort s') (he : listSort s = listSort s') : s = s' := by
  refine show_inj h h' ?_
  have h2 := congrArg String.toList (ZSort.datatype.inj he)
  simp only [String.toList_append] at h2
  exact String.ext (List.append_cancel_left (List.append_cancel_right h2))

theorem listSort_ne (s : ZSort) : listSort s ≠ .datatype "EUReal" := fun h => listName_ne (by decide) (ZSort.datatype.inj h)

/-- **C95 (sorts)**: two types have the same sort exactly if they are the same but for signs. -/
theorem C95_sorts {sorts : Ident → Option ZSort} (h : DomSorts sorts) : ∀ {t t' : STy}, (tyToSort sorts t).isSome = true →
    (tyToSort sorts t = tyToSort sorts t' ↔ STy.erase t = STy.erase t') := by
  have hne : ∀ (d : Ident) (s : ZSort), (∀ n, s ≠ .uninterp n) → sorts d ≠ some s := fun d s hs hd => hs _ (h.named d s hd).1
  have fwd : ∀ {t t' : STy}, (tyToSort sorts t).isSome = true → tyToSort sorts t = tyToSort sorts t' → STy.erase t = STy.erase t' := by
    intro t
    induction t with
    | list t ih =>
      intro t' hs he
      simp only [tyToSort, Option.isSome_map] at hs
      obtain ⟨s, hs'⟩ := Option.isSome_iff_exists.mp hs
      simp only [tyToSort, hs', Option.map_some] at he
      cases t' with
      | list t' =>
        simp only [tyToSort] at he
        obtain ⟨s', hs'', he⟩ := Option.map_eq_some_iff.mp he.symm
        have := listSort_inj (tyToSort_good h hs'') (tyToSort_good h hs') he
        simp only [STy.erase]
        exact congrArg STy.list (ih hs (hs'.trans (this ▸ hs''.symm)))
      | domain d => exact absurd he.symm (hne d _ (by simp [listSort]))
      | eureal => exact absurd (Option.some.inj he) (listSort_ne s)
      | _ => simp [tyToSort, listSort] at he
    | domain d =>
      intro t' hs he
      obtain ⟨s, hs'⟩ := Option.isSome_iff_exists.mp hs
      simp only [tyToSort] at hs' he
      cases t' with
      | domain d' =>
        simp only [tyToSort] at he
        have h1 := (h.named d s hs').1
        have h2 := (h.named d' s (he ▸ hs')).1
        rw [h1] at h2
        rw [h.inj d d' (by rw [hs']; simp) (by rw [← he, hs']; simp) (ZSort.uninterp.inj h2)]
      | list t' =>
        simp only [tyToSort] at he
        obtain ⟨s', hs'', he'⟩ := Option.map_eq_some_iff.mp (he.symm.trans hs')
        exact absurd (he'.symm ▸ hs' : sorts d = some (listSort s')) (hne d _ (by simp [listSort]))
      | tuple =>
        rw [he] at hs'
        cases hs'
      | _ =>
        simp only [tyToSort] at he
        exact absurd he (hne d _ (by simp))
    | tuple =>
      intro t' hs
      cases hs
    | _ =>
      intro t' hs he
      cases t' with
      | domain d =>
        simp only [tyToSort] at he
        exact absurd he.symm (hne d _ (by simp))
      | list t' =>
        simp only [tyToSort] at he
        obtain ⟨s', hs'', he'⟩ := Option.map_eq_some_iff.mp he.symm
        first
          | exact absurd he' (listSort_ne s')
          | simp [listSort] at he'
      | _ => first
        | rfl
        | simp [tyToSort] at he
  have bwd : ∀ t : STy, tyToSort sorts t = tyToSort sorts (STy.erase t) := by
    intro t
    induction t with
    | list t ih => simp only [tyToSort, STy.erase, ih]
    | _ => rfl
  exact fun {t t'} hs => ⟨fwd hs, fun he => by rw [bwd t, he, ← bwd]⟩

/-! ## The declarations of a program -/

/-- All the names of a program's domains and functions. They are global, so that the front end rejects programs in which two are equal (`src/front/resolve.rs:45-61`). -/
def progNames (ds : List Dom) : List String := ds.map (·.name.name) ++ (ds.flatMap Dom.funcs).map (·.name.name)

/-- A type mentions only domains in `D`, and no tuples. -/
def TyIn (D : Ident → Prop) : STy → Prop
  | .list t => TyIn D t
  | .domain d => D d
  | .tuple => False
  | _ => True

/-- The dependencies are closed (C82): the domains in the signatures of declared functions are declared. -/
def ClosedDeps (deps : Ident → Bool) (ds : List Dom) : Prop :=
  ∀ f ∈ neededFuns deps ds, TyIn (· ∈ neededSorts deps ds) f.output ∧ ∀ t ∈ f.inputs, TyIn (· ∈ neededSorts deps ds) t

/-- The constructors and the accessor of the datatype of extended reals (`z3rro/src/eureal/datatype.rs:44-51`). -/
def datatypeDecls : List ZDecl :=
  [⟨"Rplus_inf", [], .datatype "EUReal"⟩, ⟨"Rplus_real", [.real], .datatype "EUReal"⟩, ⟨"rplus_real", [.datatype "EUReal"], .real⟩]

/-- The names of the constructors of fuel (`z3rro/src/fuel.rs:21-28,46-48`). -/
def fuelNames : List String := ["$FZ", "$FS", "$Z", "$S"]

/-- What the tables are to be: each declared domain is an uninterpreted sort of its own; each declared function (each copy, for the encoder with copies) is found with
its name and the sorts of its types; different functions (and copies) are different symbols; and none of them is a helper symbol. -/
structure Faithful (var : Nat → Nat) (e : Enc) (deps : Ident → Bool) (ds : List Dom) (t : Tables) : Prop where
  sorts : ∀ d ∈ neededSorts deps ds, t.sorts d = some (.uninterp d.name)
  sortsOnly : ∀ d, d ∉ neededSorts deps ds → t.sorts d = none
  declared : ∀ f ∈ neededFuns deps ds, ∀ x ∈ e.copies var f.name, Declared e t f x
  distinct : ∀ f ∈ neededFuns deps ds, ∀ g ∈ neededFuns deps ds, ∀ x ∈ e.copies var f.name, ∀ y ∈ e.copies var g.name,
    t.lookup e f x = t.lookup e g y → f = g ∧ x = y
  only : ∀ x d, t.functions x = some d ∨ t.recs x = some d → d.name = x.name ∧ ∃ f ∈ neededFuns deps ds, x ∈ e.copies var f.name
  lits : ∀ x d, t.functions x = some d ∨ t.recs x = some d → ∀ s, d ≠ litDecl s
  fuel : ∀ x d, t.functions x = some d ∨ t.recs x = some d → d.name ∉ fuelNames
  fresh : ∀ x d, t.functions x = some d ∨ t.recs x = some d → ∀ p i, d.name ≠ freshSymbol p i

/-- Accepted programs: different names of the form that the grammar allows, and closed dependencies. -/
structure ProgOk (deps : Ident → Bool) (ds : List Dom) : Prop where
  user : ∀ n ∈ progNames ds, UserName n
  nodup : (progNames ds).Nodup
  closed : ClosedDeps deps ds

/-- The full property: the tables are as they are to be, and no symbol is a constructor or accessor, not even in its text. -/
def C95_full : Prop :=
  ∀ var e deps ds, ProgOk deps ds → ∃ t, initDeps var e deps ds = some t ∧ Faithful var e deps ds t ∧
    ∀ x d, t.functions x = some d ∨ t.recs x = some d → d ∉ datatypeDecls

/-- `domain D { func Rplus_inf(): EUReal }` -/
def c95Clash : List Dom := [⟨⟨"D", 1⟩, [⟨⟨"Rplus_inf", 2⟩, [], .eureal, false⟩]⟩]

theorem userName_of {n : String} {c : Char} {cs : List Char} (h : n.toList = c :: cs) (hc : c.isAlpha = true ∨ c = '_')
    (hcs : ∀ d ∈ cs, d.isAlphanum = true ∨ d = '_' ∨ d = '\'') : UserName n := ⟨c, cs, h, hc, hcs⟩

theorem c95Clash_ok : ProgOk (fun _ => true) c95Clash where
  user := by
    intro n hn
    simp only [progNames, c95Clash, List.map_cons, List.map_nil, List.flatMap_cons, List.flatMap_nil, List.append_nil, List.cons_append, List.nil_append,
      List.mem_cons, List.not_mem_nil, or_false] at hn
    rcases hn with rfl | rfl
    · exact userName_of (c := 'D') (cs := []) (by decide) (by decide) (by decide)
    · exact userName_of (c := 'R') (cs := "plus_inf".toList) (by decide) (by decide) (by decide)
  nodup := by decide
  closed := by
    intro f hf
    have : f = ⟨⟨"Rplus_inf", 2⟩, [], .eureal, false⟩ := by simpa [neededFuns, c95Clash] using hf
    subst this
    exact ⟨trivial, by simp⟩

/-- A function may have the name and the signature of a constructor of the datatype. Z3 keeps the two apart in memory, but not in the text of a query. -/
theorem C95_not_full : ¬ C95_full := by
  intro h
  obtain ⟨t, ht, hf, hd⟩ := h id .axiomatic (fun _ => true) c95Clash c95Clash_ok
  obtain ⟨dom, r, h1, h2, h3⟩ := hf.declared ⟨⟨"Rplus_inf", 2⟩, [], .eureal, false⟩ (by simp [neededFuns, c95Clash]) ⟨"Rplus_inf", 2⟩ (by simp [Enc.copies])
  obtain ⟨ins, hi, hdom⟩ := h1
  cases hi
  subst hdom
  cases h2
  exact hd _ _ (.inl h3) (by simp [datatypeDecls, Enc.fuelled])

theorem TyIn.isSome {D : Ident → Prop} {sorts : Ident → Option ZSort} (h : ∀ d, D d → (sorts d).isSome = true) :
    ∀ {t : STy}, TyIn D t → (tyToSort sorts t).isSome = true
  | .bool, _ | .int, _ | .uint, _ | .real, _ | .ureal, _ | .eureal, _ => rfl
  | .list t, ht => by
    simp only [tyToSort, Option.isSome_map]
    exact TyIn.isSome h (t := t) ht
  | .domain d, ht => h d ht

theorem name_first {n : String} (h : UserName n) {k : String} (hk : ∃ cs, k.toList = '$' :: cs) : n ≠ k := by
  rintro rfl
  obtain ⟨cs, hk⟩ := hk
  exact h.not_mem (c := '$') (by decide) (by decide) (by decide) (by rw [hk]; simp)

theorem copy_first {var : Nat → Nat} {e : Enc} {f x : Ident} (hf : UserName f.name) (hx : x ∈ e.copies var f) : ∀ cs, x.name.toList ≠ '$' :: cs := by
  intro cs hcs
  obtain ⟨c, r, hc, h1, _⟩ := hf
  have hcd : c ≠ '$' := by
    rintro rfl
    exact absurd h1 (by decide)
  rcases copies_name hx with rfl | ⟨k, rfl⟩
  · rw [hc] at hcs
    exact hcd (List.cons.inj hcs).1
  · simp only [withFuel, String.toList_append, hc, List.cons_append] at hcs
    exact hcd (List.cons.inj hcs).1

theorem copy_fresh {var : Nat → Nat} {e : Enc} {f x : Ident} (hf : UserName f.name) (hx : x ∈ e.copies var f) : '!' ∉ x.name.toList := by
  have h1 := hf.not_mem (c := '!') (by decide) (by decide) (by decide)
  rcases copies_name hx with rfl | ⟨k, rfl⟩
  · exact h1
  · simp only [withFuel, String.toList_append, List.mem_append, not_or]
    exact ⟨⟨h1, by decide⟩, digits_not_mem (by decide)⟩

/-- **C95**: each symbol stands for one declaration. The tables can be built, and they are as they are to be, for each of the encoders and each closed set of dependencies.
The texts of the symbols are different from those of constructors if no function is called like one. -/
theorem C95_partial (var : Nat → Nat) (e : Enc) (deps : Ident → Bool) (ds : List Dom) (h : ProgOk deps ds) :
    ∃ t, initDeps var e deps ds = some t ∧ Faithful var e deps ds t ∧
      ((∀ n ∈ progNames ds, n ∉ datatypeDecls.map ZDecl.name) → ∀ x d, t.functions x = some d ∨ t.recs x = some d → d ∉ datatypeDecls) := by
  have hn := h.nodup
  unfold progNames at hn
  rw [List.nodup_append] at hn
  have huf : ∀ f ∈ neededFuns deps ds, UserName f.name.name := fun f hf =>
    h.user _ (List.mem_append.mpr (.inr (List.mem_map.mpr ⟨f, (List.mem_filter.mp hf).1, rfl⟩)))
  have hnf : ((neededFuns deps ds).map fun f => f.name.name).Nodup := (List.filter_sublist.map _).nodup hn.2.1
  have hns : ((neededSorts deps ds).map Ident.name).Nodup := by
    refine (List.filter_sublist.map _).nodup ?_
    rw [List.map_map]
    exact hn.1
  have hI : Inv Tables.new (fun _ => False) := ⟨fun _ hc => hc rfl, fun _ _ => rfl, fun _ hc => hc rfl, fun _ _ hc => (nomatch hc), fun _ _ hc => (nomatch hc)⟩
  obtain ⟨t1, h1, hi1, hs1, hso1, hf1, hr1⟩ := addSorts_ok (neededSorts deps ds) hI (by simp) hns
  have hsome : ∀ d, d ∈ neededSorts deps ds → (t1.sorts d).isSome = true := fun d hd => by rw [hs1 d hd]; rfl
  have hsorts : ∀ f ∈ neededFuns deps ds, HasSorts t1.sorts f := fun f hf =>
    ⟨TyIn.isSome hsome (h.closed f hf).1, fun t ht => TyIn.isSome hsome ((h.closed f hf).2 t ht)⟩
  have hsep : ∀ x ∈ copiesAll var e (neededFuns deps ds), ∀ y, y ∈ neededSorts deps ds ∨ False → y.name ≠ x.name := by
    rintro x hx y (hy | hy) hxy
    · obtain ⟨f, hf, hx⟩ := List.mem_flatMap.mp hx
      obtain ⟨D, hD, rfl⟩ := List.mem_map.mp (List.mem_filter.mp hy).1
      have hDn : D.name.name ∈ ds.map (·.name.name) := List.mem_map.mpr ⟨D, hD, rfl⟩
      have hfn : f.name.name ∈ (ds.flatMap Dom.funcs).map (·.name.name) := List.mem_map.mpr ⟨f, (List.mem_filter.mp hf).1, rfl⟩
      rcases copies_name hx with rfl | ⟨k, rfl⟩
      · exact hn.2.2 _ hDn _ hfn hxy
      · exact (h.user _ (List.mem_append.mpr (.inl hDn))).not_mem (c := '$') (by decide) (by decide) (by decide) (by rw [hxy]; exact withFuel_dollar)
    · exact hy
  obtain ⟨t, h2, hi2, hs2, hd2, ho2⟩ := addFuns_ok var e (neededFuns deps ds) hi1 hsorts hsep (copiesAll_nodup var e _ huf hnf)
  have hret : ∀ x d, t.functions x = some d ∨ t.recs x = some d → d.name = x.name ∧ ∃ f ∈ neededFuns deps ds, x ∈ e.copies var f.name := by
    intro x d hx
    have hname : d.name = x.name := by
      rcases hx with hx | hx
      · exact (hi2.functions x d hx).2
      · exact (hi2.recs x d hx).2
    refine ⟨hname, List.mem_flatMap.mp (?_ : x ∈ copiesAll var e (neededFuns deps ds))⟩
    by_contra hc
    rw [(ho2 x hc).1, (ho2 x hc).2, hf1, hr1] at hx
    rcases hx with hx | hx <;> cases hx
  refine ⟨t, by rw [initDeps, h1]; exact h2, ⟨fun d hd => by rw [hs2]; exact hs1 d hd, fun d hd => by rw [hs2]; exact hso1 d hd, hd2, ?_, hret, ?_, ?_, ?_⟩, ?_⟩
  · intro f hf g hg x hx y hy hxy
    obtain ⟨_, _, _, _, e1⟩ := hd2 f hf x hx
    obtain ⟨_, _, _, _, e2⟩ := hd2 g hg y hy
    rw [e1, e2] at hxy
    have hnames : x.name = y.name := (ZDecl.mk.inj (Option.some.inj hxy)).1
    have hfg : f = g := List.inj_on_of_nodup_map hnf hf hg (copies_disjoint (huf f hf) (huf g hg) hx hy hnames)
    subst hfg
    exact ⟨rfl, List.inj_on_of_nodup_map (copies_nodup var e f.name) hx hy hnames⟩
  · rintro x d hx s rfl
    obtain ⟨h3, f, hf, hxf⟩ := hret x _ hx
    exact copy_first (huf f hf) hxf ("Lit".toList ++ s.show.toList) (by rw [← h3]; simp [litDecl, String.toList_append])
  · intro x d hx hm
    obtain ⟨h3, f, hf, hxf⟩ := hret x d hx
    rw [h3] at hm
    have := copy_first (huf f hf) hxf
    simp only [fuelNames, List.mem_cons, List.not_mem_nil, or_false] at hm
    rcases hm with hm | hm | hm | hm <;> rw [hm] at this
    · exact this "FZ".toList (by decide)
    · exact this "FS".toList (by decide)
    · exact this "Z".toList (by decide)
    · exact this "S".toList (by decide)
  · intro x d hx p i hc
    obtain ⟨h3, f, hf, hxf⟩ := hret x d hx
    refine copy_fresh (huf f hf) hxf ?_
    rw [← h3, hc]
    simp [freshSymbol, String.toList_append]
  · intro hno x d hx hm
    obtain ⟨h3, f, hf, hxf⟩ := hret x d hx
    have hm' : x.name ∈ datatypeDecls.map ZDecl.name := h3 ▸ List.mem_map.mpr ⟨d, hm, rfl⟩
    rcases copies_name hxf with rfl | ⟨k, rfl⟩
    · exact hno _ (List.mem_append.mpr (.inr (List.mem_map.mpr ⟨f, (List.mem_filter.mp hf).1, rfl⟩))) hm'
    · have hdol := withFuel_dollar (var := var) (f := f.name) (k := k)
      simp only [datatypeDecls, List.map_cons, List.map_nil, List.mem_cons, List.not_mem_nil, or_false] at hm'
      rcases hm' with hm' | hm' | hm' <;> rw [hm'] at hdol <;> exact absurd hdol (by decide)

/-- The sorts in the tables are as `C95_sorts` assumes if no domain that is used has the name of a built-in type, which it cannot have when it is mentioned in a type. -/
theorem C95_domains {var : Nat → Nat} {e : Enc} {deps : Ident → Bool} {ds : List Dom} {t : Tables} (h : ProgOk deps ds) (hf : Faithful var e deps ds t)
    (hb : ∀ d ∈ neededSorts deps ds, NotBuiltin d.name) : DomSorts t.sorts := by
  have hmem : ∀ d, t.sorts d ≠ none → d ∈ neededSorts deps ds := fun d hd => by
    by_contra hc
    exact hd (hf.sortsOnly d hc)
  have hn := h.nodup
  unfold progNames at hn
  rw [List.nodup_append] at hn
  have hns : ((neededSorts deps ds).map Ident.name).Nodup := by
    refine (List.filter_sublist.map _).nodup ?_
    rw [List.map_map]
    exact hn.1
  refine ⟨fun d s hd => ?_, fun d d' hd hd' he => List.inj_on_of_nodup_map hns (hmem d hd) (hmem d' hd') he⟩
  have hm := hmem d (by rw [hd]; simp)
  rw [hf.sorts d hm] at hd
  obtain ⟨D, hD, rfl⟩ := List.mem_map.mp (List.mem_filter.mp hm).1
  exact ⟨(Option.some.inj hd).symm, hb _ hm, h.user _ (List.mem_append.mpr (.inl (List.mem_map.mpr ⟨D, hD, rfl⟩)))⟩

/-- Different values of the counter give different Skolem functions, whatever their prefixes. -/
theorem C95_fresh {p q : String} {i j : Nat} (h : freshSymbol p i = freshSymbol q j) : p = q ∧ i = j := numbered_sep (c := '!') (by decide) h

/-- The markers of literals of different sorts of types have different names. -/
theorem C95_lits {s s' : ZSort} (h : GoodSort s) (h' : GoodSort s') (he : (litDecl s).name = (litDecl s').name) : s = s' := by
  refine show_inj h h' ?_
  have h2 := congrArg String.toList he
  simp only [litDecl, String.toList_append] at h2
  exact String.ext (List.append_cancel_left h2)

/-- The table of symbols is right for identifiers with different names: each has its own name. -/
theorem C95_symbols (xs : List Ident) (hn : (xs.map Ident.name).Nodup) : ∀ x, (Symbolizer.new.run xs).symbols x = if x ∈ xs then some x.name else none := by
  have : ∀ (xs : List Ident) (s : Symbolizer) (D : List Ident), ((D ++ xs).map Ident.name).Nodup →
      (∀ x, s.symbols x = if x ∈ D then some x.name else none) → (∀ n, n ∉ D.map Ident.name → s.counter n = 0) →
      ∀ x, (s.run xs).symbols x = if x ∈ D ++ xs then some x.name else none := by
    intro xs
    induction xs with
    | nil =>
      intro s D _ h1 _ x
      rw [List.append_nil]
      exact h1 x
    | cons y xs ih =>
      intro s D hn h1 h2 x
      have hy : y.name ∉ D.map Ident.name := by
        rw [List.map_append, List.nodup_append] at hn
        exact fun hc => hn.2.2 _ hc _ (List.mem_map.mpr ⟨y, by simp, rfl⟩) rfl
      have hyD : y ∉ D := fun hc => hy (List.mem_map.mpr ⟨y, hc, rfl⟩)
      have hg : s.get y = (y.name, ⟨Function.update s.counter y.name 1, Function.update s.symbols y (some y.name)⟩) := by
        unfold Symbolizer.get
        rw [h1 y, if_neg hyD]
        simp only [h2 y.name hy, numbered]
        simp
      have := ih (s.get y).2 (D ++ [y]) (by simpa using hn) (fun z => ?_) (fun n hnn => ?_) x
      · simpa [Symbolizer.run] using this
      · rw [hg]
        by_cases hz : z = y
        · subst hz
          simp
        · simp only [Function.update_of_ne hz, List.mem_append, List.mem_singleton, hz, or_false]
          exact h1 z
      · rw [hg]
        simp only [List.map_append, List.map_cons, List.map_nil, List.mem_append, List.mem_singleton, not_or] at hnn
        simp only [Function.update_of_ne hnn.2]
        exact h2 n hnn.1
  intro x
  simpa using this xs .new [] (by simpa using hn) (by simp [Symbolizer.new]) (by simp [Symbolizer.new]) x

/-- The symbol of an identifier is never changed, whatever else is asked for. -/
theorem C95_stable (xs : List Ident) : ∀ (s : Symbolizer) (x : Ident) (n : String), s.symbols x = some n → (s.run xs).symbols x = some n := by
  induction xs with
  | nil => exact fun _ _ _ h => h
  | cons y xs ih =>
    intro s x n h
    refine ih _ x n ?_
    unfold Symbolizer.get
    cases hy : s.symbols y with
    | some m => exact h
    | none =>
      have : x ≠ y := by
        rintro rfl
        rw [h] at hy
        cases hy
      simp only [Function.update_of_ne this]
      exact h

/-! ## A program -/

/-- `domain D { func f(d: D, l: []D): UReal = … func g(): []Int }`, `domain E { func h(e: E): Bool }` -/
def c95Prog : List Dom :=
  [⟨⟨"D", 1⟩, [⟨⟨"f", 2⟩, [.domain ⟨"D", 1⟩, .list (.domain ⟨"D", 1⟩)], .ureal, true⟩, ⟨⟨"g'", 3⟩, [], .list .int, false⟩]⟩,
   ⟨⟨"E", 4⟩, [⟨⟨"h_1", 5⟩, [.domain ⟨"E", 4⟩], .bool, false⟩]⟩]

/-- The hypotheses of `C95_partial` hold for the program and the dependencies `D` and `f`, and for everything. -/
theorem c95Prog_ok (deps : Ident → Bool) (hd : deps ⟨"D", 1⟩ = true) (he : deps ⟨"E", 4⟩ = deps ⟨"h_1", 5⟩) : ProgOk deps c95Prog where
  user := by
    intro n hn
    have : n ∈ ["D", "E", "f", "g'", "h_1"] := by simpa [progNames, c95Prog] using hn
    simp only [List.mem_cons, List.not_mem_nil, or_false] at this
    rcases this with rfl | rfl | rfl | rfl | rfl
    · exact userName_of (c := 'D') (cs := []) (by decide) (by decide) (by decide)
    · exact userName_of (c := 'E') (cs := []) (by decide) (by decide) (by decide)
    · exact userName_of (c := 'f') (cs := []) (by decide) (by decide) (by decide)
    · exact userName_of (c := 'g') (cs := ['\'']) (by decide) (by decide) (by decide)
    · exact userName_of (c := 'h') (cs := ['_', '1']) (by decide) (by decide) (by decide)
  nodup := by decide
  closed := by
    intro f hf
    have hD : (⟨"D", 1⟩ : Ident) ∈ neededSorts deps c95Prog := by simp [neededSorts, c95Prog, hd]
    obtain ⟨hm, hdf⟩ := List.mem_filter.mp hf
    have : f ∈ [⟨⟨"f", 2⟩, [.domain ⟨"D", 1⟩, .list (.domain ⟨"D", 1⟩)], .ureal, true⟩, ⟨⟨"g'", 3⟩, [], .list .int, false⟩,
      (⟨⟨"h_1", 5⟩, [.domain ⟨"E", 4⟩], .bool, false⟩ : Fun)] := by simpa [c95Prog] using hm
    simp only [List.mem_cons, List.not_mem_nil, or_false] at this
    rcases this with rfl | rfl | rfl
    · exact ⟨trivial, by simp [TyIn, hD]⟩
    · exact ⟨trivial, by simp⟩
    · have : deps ⟨"E", 4⟩ = true := he.trans hdf
      exact ⟨trivial, by simp [TyIn, neededSorts, c95Prog, this]⟩

example : ProgOk (fun x => x.name = "D" ∨ x.name = "f") c95Prog := c95Prog_ok _ (by decide) (by decide)
example : ProgOk (fun _ => true) c95Prog := c95Prog_ok _ rfl rfl
/-- No name is that of a constructor. -/
example : ∀ n ∈ progNames c95Prog, n ∉ datatypeDecls.map ZDecl.name := by decide
/-- No domain is called like a built-in type. -/
example : ∀ d ∈ neededSorts (fun _ => true) c95Prog, NotBuiltin d.name := by
  unfold NotBuiltin
  decide
/-- The copies of `f` for fuel up to 2. -/
example : (Enc.mono (fun x => x.name = "f") 2).copies id ⟨"f", 2⟩ = [⟨"f$0", 2⟩, ⟨"f$1", 2⟩, ⟨"f$2", 2⟩] := by decide
/-- The name of the sort of lists of lists. -/
example : tyToSort (fun _ => none) (.list (.list .uint)) = some (.datatype "List[|List[Int]|]") := by decide
/-- Sorts as in `C95_sorts`. -/
example : DomSorts (fun d => if d = ⟨"D", 1⟩ then some (.uninterp "D") else none) where
  named := by
    intro d s h
    split at h
    · rename_i hd
      subst hd
      cases h
      exact ⟨rfl, by unfold NotBuiltin; decide, userName_of (c := 'D') (cs := []) (by decide) (by decide) (by decide)⟩
    · cases h
  inj := by
    intro d d' h h' _
    split at h
    · split at h'
      · rename_i h1 h2
        exact h1.trans h2.symm
      · exact absurd rfl h'
    · exact absurd rfl h

end Caesar
