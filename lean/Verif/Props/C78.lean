import Verif.Smt.LiteralsLemmas
import Verif.FreeVars
import Verif.Witness

/-!
# C78: The marked literal expressions

Expressions whose value is known are marked, so that the SMT solver may compute with them. The marks are the addresses of nodes.
-/

namespace Caesar.Smt.Sharing

/-! ## The collection -/

/-- **C78**: the collector does not change the expression, and reports exactly the literal subexpressions that are maximal or arguments of calls, although it
compares addresses and the expression may share nodes within itself and with others: after the collection, different positions have different addresses,
all marks are in the expression, and the other expressions of the program are as before and not marked. -/
theorem C78_collect (c : Collector) (hc : c.literalVars ≠ [] ∨ c.computable ≠ []) (n : Nat) (held : List Nat) (cells : List Cell) (hb : Bounded cells)
    (a₀ : ATree) (hin : a₀.In cells) (hplain : a₀.erase.Plain) (hn : a₀.ptrs.length ≤ n) :
    ∃ s a, c.collect n held cells a₀.root = some (s, a.root) ∧ a.In s.cells ∧ a.erase = a₀.erase ∧
      (∀ π sub, a.at π = some sub → (sub.root ∈ s.set ↔ Reported c a π)) ∧
      (∀ π π' sub sub', a.at π = some sub → a.at π' = some sub' → sub.root = sub'.root → π = π') ∧
      (∀ q ∈ s.set, q ∈ a.ptrs) ∧
      ∀ b : ATree, b.root ∈ held → b.In cells → b.In s.cells ∧ ∀ q ∈ b.ptrs, q ∉ s.set := by
  obtain ⟨s, a, h1, v⟩ := visit_spec c n a₀ hn hplain held ⟨cells, []⟩ ⟨hb, by simp⟩ hin
  have hset : ∀ q, q ∈ s.set ↔ q ∈ a.marks c := by simpa using v.set
  refine ⟨s, a, ?_, v.isIn, v.same, ?_, ?_, ?_, ?_⟩
  · rw [Collector.collect, if_neg (by tauto), h1]
  · intro π sub h
    rw [hset, marks_iff c π a sub v.nodup h, Reported]
    constructor
    · exact fun h' => ⟨sub, h, h'⟩
    · rintro ⟨sub', h', h''⟩
      rw [h] at h'
      cases h'
      exact h''
  · exact fun π π' sub sub' h h' he => at_inj π π' a sub sub' v.nodup h h' he
  · exact fun q hq => marks_sub c a q ((hset q).1 hq)
  · intro b hb hbin
    have := v.held b hb hbin
    exact ⟨this.1, fun q hq hs => this.2 q (marks_sub c a q ((hset q).1 hs)) hq⟩

/-- Subexpressions of literal expressions are literal. -/
theorem literal_at (c : Collector) : ∀ (π : List Nat) (a sub : ATree), a.erase.Plain → Literal c a.erase → a.at π = some sub → Literal c sub.erase
  | [], a, sub, _, h, hs => by cases hs; exact h
  | i :: π, .node p k ts, sub, hp, h, hs => by
    rw [ATree.at, Option.bind_eq_some_iff] at hs
    obtain ⟨t, ht, hs⟩ := hs
    have hmem := List.mem_of_getElem? ht
    simp only [ATree.erase, Tree.Plain] at hp
    have hkid : t.erase ∈ eraseAll ts := by rw [eraseAll_eq]; exact List.mem_map_of_mem hmem
    refine literal_at c π t sub (plainAll_iff.1 hp.2.2 _ hkid) ?_ hs
    rw [ATree.erase] at h
    cases h with
    | lit => rw [hp.2.1 (.inl rfl)] at hkid; simp at hkid
    | var x => rw [hp.2.1 (.inr ⟨x, rfl⟩)] at hkid; simp at hkid
    | call _ _ _ h => exact h _ hkid
    | op _ _ _ h => exact h _ hkid

theorem at_append (π π' : List Nat) (a : ATree) : a.at (π ++ π') = (a.at π).bind (ATree.at π') := by
  induction π generalizing a with
  | nil => rfl
  | cons i π ih =>
    obtain ⟨p, k, ts⟩ := a
    rw [List.cons_append, ATree.at, ATree.at]
    cases ts[i]? with
    | none => rfl
    | some t => exact ih t

/-- There are no calls. -/
def NoCalls (a : ATree) : Prop := ∀ π sub, a.at π = some sub → ¬ sub.kind.isCall

/-- A subexpression is maximal among those with the property. -/
def MaximalAt (P : Tree → Prop) (a : ATree) (π : List Nat) : Prop :=
  (∃ sub, a.at π = some sub ∧ P sub.erase) ∧ ∀ π' π'' sup, π = π' ++ π'' → π'' ≠ [] → a.at π' = some sup → ¬ P sup.erase

/-- **C78**, the documentation (partial): without calls, the reported expressions are the maximal literal ones, and no child of a reported expression is reported.
Missing: calls, whose arguments are reported as well. -/
theorem C78_maximal_partial (c : Collector) (a : ATree) (hp : a.erase.Plain) (hc : NoCalls a) (π : List Nat) :
    (Reported c a π ↔ MaximalAt (Literal c) a π) ∧ (Reported c a π → ∀ i, ¬ Reported c a (π ++ [i])) := by
  have key : Reported c a π ↔ MaximalAt (Literal c) a π := by
    constructor
    · rintro ⟨sub, h1, h2, h3⟩
      refine ⟨⟨sub, h1, h2⟩, ?_⟩
      intro π' π'' sup he hne hsup hl
      rcases h3 with rfl | ⟨parent, h4, h5⟩
      · simp only [List.nil_eq, List.append_eq_nil_iff] at he
        exact hne he.2
      · refine h5.elim (hc _ _ h4) fun h5 => h5 ?_
        rw [he, List.dropLast_append_of_ne_nil hne, at_append, hsup] at h4
        have hplain : ∀ (π : List Nat) (a sub : ATree), a.erase.Plain → a.at π = some sub → sub.erase.Plain := by
          intro π
          induction π with
          | nil => intro a sub h hs; cases hs; exact h
          | cons i π ih =>
            intro a sub h hs
            obtain ⟨p, k, ts⟩ := a
            rw [ATree.at, Option.bind_eq_some_iff] at hs
            obtain ⟨t, ht, hs⟩ := hs
            refine ih t sub ?_ hs
            simp only [ATree.erase, Tree.Plain] at h
            refine plainAll_iff.1 h.2.2 _ ?_
            rw [eraseAll_eq]
            exact List.mem_map_of_mem (List.mem_of_getElem? ht)
        exact literal_at c _ sup parent (hplain π' a sup hp hsup) hl h4
    · rintro ⟨⟨sub, h1, h2⟩, h3⟩
      refine ⟨sub, h1, h2, ?_⟩
      by_cases hπ : π = []
      · exact .inl hπ
      · have he : π = π.dropLast ++ [π.getLast hπ] := (List.dropLast_append_getLast hπ).symm
        have h4 := h1
        rw [he, at_append, Option.bind_eq_some_iff] at h4
        obtain ⟨parent, h4, _⟩ := h4
        exact .inr ⟨parent, h4, .inr (h3 _ _ parent he (by simp) h4)⟩
  refine ⟨key, ?_⟩
  rintro ⟨sub, h1, h2, _⟩ i ⟨sub', _, _, h5⟩
  rcases h5 with h5 | ⟨parent, h5, h6⟩
  · simp at h5
  · rw [List.dropLast_concat, h1] at h5
    cases h5
    exact h6.elim (hc _ _ h1) fun h => h h2

/-- What the documentation calls literal (`src/smt/funcs/fuel/literals.rs:56-59`). -/
inductive LiteralDoc (c : Collector) : Tree → Prop
  | lit : LiteralDoc c (.node .lit [])
  | var x : x ∈ c.literalVars → LiteralDoc c (.node (.var x) [])
  | kids k t ts : (∀ u ∈ t :: ts, LiteralDoc c u) → LiteralDoc c (.node k (t :: ts))

/-- The documentation: the maximal literal subexpressions are collected. -/
def C78_full : Prop :=
  ∀ (c : Collector) (n : Nat) (cells : List Cell) (a₀ : ATree) (s : LitState) (a : ATree), Bounded cells → a₀.In cells → a₀.erase.Plain →
    c.collect n [] cells a₀.root = some (s, a.root) → a.In s.cells → ∀ π sub, a.at π = some sub → (sub.root ∈ s.set ↔ MaximalAt (LiteralDoc c) a π)

/-- `fac` and `x`. -/
def fac : Ident := ⟨"fac", 0⟩
def varX : Ident := ⟨"x", 1⟩

/-- `fac(5)`. -/
def facFive : ATree := .node 1 (.call fac) [.node 0 .lit []]

/-- The argument of a call is reported, although the call is. -/
theorem C78_not_full : ¬ C78_full := by
  intro h
  have h1 := h ⟨[], [fac]⟩ 2 [⟨.lit, []⟩, ⟨.call fac, [0]⟩] facFive ⟨[⟨.lit, []⟩, ⟨.call fac, [0]⟩], [1, 0]⟩ facFive
    (by intro c hc q hq; simp at hc; rcases hc with rfl | rfl <;> simp_all) ⟨rfl, ⟨rfl, trivial⟩, trivial⟩
    ⟨by simp, by simp, ⟨by simp, by simp [eraseAll], trivial⟩, trivial⟩ rfl ⟨rfl, ⟨rfl, trivial⟩, trivial⟩ [0] (.node 0 .lit []) rfl
  refine (h1.1 (by simp [ATree.root])).2 [] [0] facFive rfl (by simp) rfl ?_
  refine .kids _ _ _ fun u hu => ?_
  simp only [eraseAll, List.mem_singleton] at hu
  subst hu
  exact .lit

/-- Variables are not added to the known ones, but replace them (`src/smt/funcs/fuel/literals.rs:91-97`: "Add some variables to the set of literals"). -/
theorem C78_add_not_full : ¬ ∀ (c : Collector) (xs : List Ident), ∀ x ∈ c.literalVars, x ∈ (c.addLiteralVars xs).literalVars := by
  intro h
  have := h ⟨[varX], []⟩ [] varX (by simp)
  simp [Collector.addLiteralVars] at this

/-- After the first call, this is exactly what is known. -/
theorem C78_add_partial (c : Collector) (h : c.literalVars = []) (xs : List Ident) (x : Ident) :
    x ∈ (c.addLiteralVars xs).literalVars ↔ x ∈ c.literalVars ∨ x ∈ xs := by simp [Collector.addLiteralVars, h]

/-- Without variables and functions nothing is reported, not even the literal itself. -/
theorem C78_empty_not_full : ¬ ∀ (c : Collector) (n : Nat) (held : List Nat) (cells : List Cell) (a₀ : ATree) (s : LitState) (a : ATree), a₀.In cells →
    c.collect n held cells a₀.root = some (s, a.root) → a.In s.cells → ∀ π sub, a.at π = some sub → (sub.root ∈ s.set ↔ Reported c a π) := by
  intro h
  have := h ⟨[], []⟩ 1 [] [⟨.lit, []⟩] (.node 0 .lit []) ⟨[⟨.lit, []⟩], []⟩ (.node 0 .lit []) ⟨rfl, trivial⟩ rfl ⟨rfl, trivial⟩ [] (.node 0 .lit []) rfl
  exact absurd (this.2 ⟨_, rfl, .lit _, .inl rfl⟩) (by simp)

/-! ## The values of literal expressions -/

/-- The shape of an expression (`ExprKind`, `src/ast/expr.rs:51-71`). -/
def _root_.Caesar.Expr.tree : {t : Ty} → Expr t → Tree
  | _, .var x => .node (.var x) []
  | _, .lit _ => .node .lit []
  | _, .call f args => .node (.call f.name) (List.ofFn fun i => (args i).tree)
  | _, .ite c a b => .node .ite [c.tree, a.tree, b.tree]
  | _, .bin _ a b => .node .binary [a.tree, b.tree]
  | _, .rel _ a b => .node .binary [a.tree, b.tree]
  | _, .un _ a => .node .unary [a.tree]
  | _, .embed a => .node .unary [a.tree]
  | _, .iverson a => .node .unary [a.tree]
  | _, .cast _ a => .node .cast [a.tree]
  | _, .quant _ _ _ a => .node .quant [a.tree]
  | _, .subst _ e a => .node .subst [e.tree, a.tree]

theorem literal_kids_of {c : Collector} {k : Kind} {ts : List Tree} (h : Literal c (.node k ts)) (hk : k = .ite ∨ k = .binary ∨ k = .unary ∨ k = .cast) :
    ∀ t ∈ ts, Literal c t := by
  cases h with
  | lit => simp at hk
  | var => simp at hk
  | call => simp at hk
  | op _ _ _ h => exact h

theorem literal_free {c : Collector} {t : Ty} (e : Expr t) (h : Literal c e.tree) (v : Var) (hv : e.Free v) : v.id ∈ c.literalVars := by
  induction e with
  | var x =>
    cases hv
    cases h with
    | var _ _ h => exact h
    | op _ _ h => simp at h
  | lit _ => exact hv.elim
  | call f args ih =>
    obtain ⟨i, hv⟩ := hv
    refine ih i ?_ hv
    cases h with
    | call _ _ _ h => exact h _ (List.mem_ofFn.2 ⟨i, rfl⟩)
    | op _ _ h => simp at h
  | ite b x y hb hx hy =>
    have := literal_kids_of h (by simp)
    rcases hv with hv | hv | hv
    · exact hb (this _ (by simp)) hv
    · exact hx (this _ (by simp)) hv
    · exact hy (this _ (by simp)) hv
  | bin _ x y hx hy =>
    have := literal_kids_of h (by simp)
    rcases hv with hv | hv
    · exact hx (this _ (by simp)) hv
    · exact hy (this _ (by simp)) hv
  | rel _ x y hx hy =>
    have := literal_kids_of h (by simp)
    rcases hv with hv | hv
    · exact hx (this _ (by simp)) hv
    · exact hy (this _ (by simp)) hv
  | un _ x ih => exact ih (literal_kids_of h (by simp) _ (by simp)) hv
  | embed x ih => exact ih (literal_kids_of h (by simp) _ (by simp)) hv
  | iverson x ih => exact ih (literal_kids_of h (by simp) _ (by simp)) hv
  | cast _ x ih => exact ih (literal_kids_of h (by simp) _ (by simp)) hv
  | quant _ _ _ x ih =>
    cases h with
    | op _ _ h => simp at h
  | subst _ _ _ =>
    cases h with
    | op _ _ h => simp at h

/-- **C78**, the meaning: the value of a literal expression depends on the values of the literal variables only. -/
theorem C78_value [Doms] [Interp] (c : Collector) {t : Ty} (e : Expr t) (h : Literal c e.tree) (σ σ' : Env)
    (hσ : ∀ v : Var, v.id ∈ c.literalVars → σ v = σ' v) : e.eval σ = e.eval σ' :=
  Expr.eval_congr e fun v hv => hσ v (literal_free e h v hv)

/-- The interpretation in which all functions return the default value, and the one in which they return `n` for natural numbers. -/
@[reducible] noncomputable def constInterp (n : ℕ) : @Interp unitDoms :=
  let _ := unitDoms
  { func := fun {t} _ _ => match t with | .uint => n | t => t.default
    divU0 := fun _ => 0, divR0 := fun _ => 0, modN0 := fun _ => 0, modZ0 := fun _ => 0 }

/-- "An expression is literal if it always has the same value under all interpretations" (`src/smt/translate_exprs.rs:111-117`) does not hold: the
values of functions that are declared to be computable are not fixed. -/
theorem C78_value_not_full : ¬ ∀ (c : Collector), c.literalVars = [] → ∀ {t : Ty} (e : Expr t), Literal c e.tree →
    let _ := unitDoms; ∀ (I I' : Interp) (σ : Env), @Expr.eval _ I _ e σ = @Expr.eval _ I' _ e σ := by
  intro h
  have h1 := h ⟨[], [fac]⟩ rfl (t := .uint) (.call ⟨fac, []⟩ fun i => i.elim0) (.call fac _ (by simp) (by simp [List.ofFn])) (constInterp 0) (constInterp 1)
    (let _ := unitDoms; fun v => v.ty.default)
  have h2 : (0 : ℕ) = 1 := h1
  omega

/-! ## Examples -/

/-- `fac(5) + x` and `x` twice, where the node of `x` is shared: `(fac(5) + x) * x`. -/
def sharedCells : List Cell := [⟨.lit, []⟩, ⟨.call fac, [0]⟩, ⟨.var varX, []⟩, ⟨.binary, [1, 2]⟩, ⟨.binary, [3, 2]⟩]

def sharedTree : ATree := .node 4 .binary [.node 3 .binary [facFive, .node 2 (.var varX) []], .node 2 (.var varX) []]

theorem sharedTree_in : sharedTree.In sharedCells :=
  ⟨rfl, ⟨rfl, ⟨rfl, ⟨rfl, trivial⟩, trivial⟩, ⟨rfl, trivial⟩, trivial⟩, ⟨rfl, trivial⟩, trivial⟩

theorem sharedTree_plain : sharedTree.erase.Plain :=
  ⟨by simp, by simp, ⟨by simp, by simp, ⟨by simp, by simp, ⟨by simp, by simp [eraseAll], trivial⟩, trivial⟩, ⟨by simp, by simp [eraseAll], trivial⟩, trivial⟩,
    ⟨by simp, by simp [eraseAll], trivial⟩, trivial⟩

/-- The hypotheses are met by an expression with a shared node, which is also held by somebody else. -/
example : ∃ (s : LitState) (a : ATree), (⟨[varX], [fac]⟩ : Collector).collect 6 [2] sharedCells 4 = some (s, a.root) ∧ a.erase = sharedTree.erase ∧ a.root ∈ s.set ∧
    (ATree.node 2 (.var varX) []).In s.cells := by
  obtain ⟨s, a, h1, h2, h3, h4, _, _, h5⟩ := C78_collect ⟨[varX], [fac]⟩ (by simp) 6 [2] sharedCells
    (by intro c hc q hq; simp [sharedCells] at hc; rcases hc with rfl | rfl | rfl | rfl | rfl <;> simp_all [sharedCells] <;> omega)
    sharedTree sharedTree_in sharedTree_plain (by decide)
  refine ⟨s, a, h1, h3, (h4 [] a rfl).2 ⟨a, rfl, ?_, .inl rfl⟩, (h5 (.node 2 (.var varX) []) (by simp [ATree.root]) ⟨rfl, trivial⟩).1⟩
  rw [h3]
  refine .op _ _ (by simp) fun t ht => ?_
  simp only [eraseAll, List.mem_cons, List.not_mem_nil, or_false] at ht
  rcases ht with rfl | rfl
  · refine .op _ _ (by simp) fun t ht => ?_
    simp only [eraseAll, List.mem_cons, List.not_mem_nil, or_false] at ht
    rcases ht with rfl | rfl
    · refine .call _ _ (by simp) fun t ht => ?_
      simp only [eraseAll, List.mem_singleton] at ht
      subst ht
      exact .lit _
    · exact .var _ _ (by simp)
  · exact .var _ _ (by simp)

/-- The documentation's example `a + 4 * b` with a literal `a`: `a` and `4` are reported, and nothing else; there is no subexpression `a + 4`. -/
example : (⟨[⟨"a", 0⟩], []⟩ : Collector).collect 5 [] [⟨.var ⟨"a", 0⟩, []⟩, ⟨.lit, []⟩, ⟨.var ⟨"b", 0⟩, []⟩, ⟨.binary, [1, 2]⟩, ⟨.binary, [0, 3]⟩] 4 =
    some (⟨[⟨.var ⟨"a", 0⟩, []⟩, ⟨.lit, []⟩, ⟨.var ⟨"b", 0⟩, []⟩, ⟨.binary, [1, 2]⟩, ⟨.binary, [0, 3]⟩], [1, 0]⟩, 4) := rfl

end Caesar.Smt.Sharing
