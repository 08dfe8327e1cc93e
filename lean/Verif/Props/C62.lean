import Verif.Parse.OldTotal
import Verif.Parse.Meaning
import Verif.Parse.ResAssoc
import Verif.Parse.Print

/-!
# C62: the check for changed precedences

The grammar of HeyVL has changed: operators bind in another way than they did. By default (`src/driver/commands/options.rs:27`) files are parsed with both
grammars, and a file is rejected if the change of the grammar matters for it. The theorems say exactly when: `C62_accepted`, `C62_changed`,
`C62_syntaxError`, `C62_no_panic`. The files `us` which the check accepts mean the same with both grammars (`C62_meaning_partial`).

The full property also says that the type checker treats both trees in the same way. That is false (`C62_not_full`): for `i + r + s` with `i: Int`, `r: UReal`,
`s: Real` it rejects the tree of the new grammar, as there is no common type of `Int` and `UReal`, and would accept that of the old grammar.
-/

namespace Caesar
namespace Parse

open Front

/-- The result of parsing with a grammar. It is the only tree that the grammar gives (`C62_unique`). -/
noncomputable def parse (G : Prec) (raw : Bool) (ts : List Tok) : Option (List RUnit) :=
  open scoped Classical in if h : ∃ us, File G raw ts us then some h.choose else none

/-- `parse_decls` and `parse_raw` (`src/front/parser/mod.rs:120-202`) on tokens. -/
noncomputable def parseFile (mode : ParserMode) (raw : Bool) (ts : List Tok) : Outcome (List RUnit) :=
  parseByMode exprsF mode (parse newG raw ts) (parse oldG raw ts)

/-! ## Specification -/

/-- Two files are the same, except that chains of associative operators are bracketed in other ways: without expressions they are the same, and the expressions
are pairwise the same up to the laws of associativity. -/
structure SameFile (us us' : List RUnit) : Prop where
  skel : us.map skelU = us'.map skelU
  exprs : List.Forall₂ Reassoc (exprsF us) (exprsF us')

/-- Two expressions have the same meaning: name resolution gives the same result for both (the same error, or the same declarations), and
if the type checker accepts both, then they have the same type, the same effect on the declarations, and the same value in all states. -/
def SameMeaning [Doms] [Interp] (e e' : RExpr) : Prop :=
  ∀ st, SameRun (fun a a' => ∀ pre imp Γ b Γ₁ b' Γ₁', check pre imp a Γ = some (b, Γ₁) → check pre imp a' Γ = some (b', Γ₁') →
    Γ₁ = Γ₁' ∧ b.ty = b'.ty ∧ ∀ Δ t (E E' : Expr t), Reads Δ b t E → Reads Δ b' t E' → ∀ σ, E.eval σ = E'.eval σ) (resE e st) (resE e' st)

/-- The full property. -/
def C62_full [Doms] [Interp] : Prop :=
  ∀ raw ts us, parseFile .both raw ts = .ok us → ∃ us', File oldG raw ts us' ∧ us.map skelU = us'.map skelU ∧
    List.Forall₂ (fun e e' => SameMeaning e e' ∧ ∀ pre imp Γ, (check pre imp e Γ).isSome = (check pre imp e' Γ).isSome) (exprsF us) (exprsF us')

/-! ## Theorems -/

/-- Both grammars give at most one tree. -/
theorem C62_unique {raw : Bool} {ts : List Tok} {us us' : List RUnit} :
    (File newG raw ts us → File newG raw ts us' → us = us') ∧ (File oldG raw ts us → File oldG raw ts us' → us = us') :=
  ⟨File.unique newG_ok, File.unique oldG_ok⟩

theorem parse_some {G : Prec} (hG : G.Ok) {raw : Bool} {ts : List Tok} {us : List RUnit} : parse G raw ts = some us ↔ File G raw ts us := by
  unfold parse
  split
  · rename_i h
    rw [Option.some.injEq]
    constructor
    · rintro rfl
      exact h.choose_spec
    · exact fun h' => File.unique hG h.choose_spec h'
  · rename_i h
    exact ⟨nofun, fun h' => (h ⟨us, h'⟩).elim⟩

theorem parse_none {G : Prec} {raw : Bool} {ts : List Tok} : parse G raw ts = none ↔ ¬ ∃ us, File G raw ts us := by
  unfold parse
  split
  · rename_i h
    exact ⟨nofun, fun h' => (h' h).elim⟩
  · rename_i h
    exact ⟨fun _ => h, fun _ => rfl⟩

/-- The new grammar accepts nothing that the old grammar rejects. So the check takes place for all files that are parsed. -/
theorem C62_old {raw : Bool} {ts : List Tok} {us : List RUnit} (h : File newG raw ts us) : ∃ us', File oldG raw ts us' ∧ us.map skelU = us'.map skelU := by
  obtain ⟨us', h1, h2, -⟩ := File.old h
  exact ⟨us', h1, h2⟩

/-- The check itself: for trees of the same tokens there is no failure, and a mismatch is reported exactly if some expressions are not the same up to
associativity. -/
theorem mismatch_both : ∀ {es es' : List RExpr}, List.Forall₂ Both es es' →
    (mismatch es es' = some false ∧ List.Forall₂ Reassoc es es') ∨ (mismatch es es' = some true ∧ ¬ List.Forall₂ Reassoc es es') := by
  intro es es' h
  have hlen := h.length_eq
  unfold mismatch
  by_cases hany : ((es.zip es').any fun p => fp p.1 ≠ fp p.2) = true
  · refine .inr ⟨by rw [if_pos hany], fun hr => ?_⟩
    rw [List.any_eq_true] at hany
    obtain ⟨⟨a, b⟩, hm, hne⟩ := hany
    have hab : Both a b := (List.forall₂_iff_zip.1 h).2 hm
    have hrab : Reassoc a b := (List.forall₂_iff_zip.1 hr).2 hm
    exact (of_decide_eq_true hne) (hab.fp_iff.2 hrab)
  · refine .inl ⟨by rw [if_neg hany, if_pos hlen], List.forall₂_iff_zip.2 ⟨hlen, fun {a b} hm => ?_⟩⟩
    have hab : Both a b := (List.forall₂_iff_zip.1 h).2 hm
    by_contra hne
    exact hany (List.any_eq_true.2 ⟨(a, b), hm, decide_eq_true fun heq => hne (hab.fp_iff.1 heq)⟩)

/-- What happens with both parsers. -/
theorem parseFile_both {raw : Bool} {ts : List Tok} :
    (parseFile .both raw ts = .syntaxError ∧ ¬ ∃ us, File newG raw ts us) ∨
    ∃ us us', File newG raw ts us ∧ File oldG raw ts us' ∧
      ((parseFile .both raw ts = .ok us ∧ SameFile us us') ∨ (parseFile .both raw ts = .changed ∧ ¬ SameFile us us')) := by
  by_cases hn : ∃ us, File newG raw ts us
  · obtain ⟨us, h⟩ := hn
    obtain ⟨us', h', hs, hb⟩ := File.old h
    refine .inr ⟨us, us', h, h', ?_⟩
    unfold parseFile
    rw [(parse_some newG_ok).2 h, (parse_some oldG_ok).2 h']
    rcases mismatch_both hb with ⟨hm, hr⟩ | ⟨hm, hr⟩
    · exact .inl ⟨by simp only [parseByMode, hm], ⟨hs, hr⟩⟩
    · exact .inr ⟨by simp only [parseByMode, hm], fun hsame => hr hsame.exprs⟩
  · refine .inl ⟨?_, hn⟩
    unfold parseFile
    rw [parse_none.2 hn]
    rfl

/-- Files are accepted exactly if both grammars give the same file, up to the bracketing of associative operators. The result is that of the new grammar. -/
theorem C62_accepted {raw : Bool} {ts : List Tok} {us : List RUnit} :
    parseFile .both raw ts = .ok us ↔ File newG raw ts us ∧ ∃ us', File oldG raw ts us' ∧ SameFile us us' := by
  rcases parseFile_both (raw := raw) (ts := ts) with ⟨h, hn⟩ | ⟨vs, vs', hv, hv', ⟨h, hs⟩ | ⟨h, hs⟩⟩
  · rw [h]
    exact ⟨nofun, fun h' => (hn ⟨_, h'.1⟩).elim⟩
  · rw [h]
    constructor
    · intro h'
      cases h'
      exact ⟨hv, vs', hv', hs⟩
    · rintro ⟨h1, -⟩
      rw [C62_unique.1 hv h1]
  · rw [h]
    refine ⟨nofun, ?_⟩
    rintro ⟨h1, us', h2, h3⟩
    rw [C62_unique.1 h1 hv, C62_unique.2 h2 hv'] at h3
    exact (hs h3).elim

/-- Files are rejected because of precedences exactly if both grammars accept them and give different files. -/
theorem C62_changed {raw : Bool} {ts : List Tok} :
    parseFile .both raw ts = .changed ↔ ∃ us us', File newG raw ts us ∧ File oldG raw ts us' ∧ ¬ SameFile us us' := by
  rcases parseFile_both (raw := raw) (ts := ts) with ⟨h, hn⟩ | ⟨vs, vs', hv, hv', ⟨h, hs⟩ | ⟨h, hs⟩⟩
  · rw [h]
    exact ⟨nofun, fun ⟨_, _, h', _⟩ => (hn ⟨_, h'⟩).elim⟩
  · rw [h]
    refine ⟨nofun, ?_⟩
    rintro ⟨us, us', h1, h2, h3⟩
    rw [C62_unique.1 h1 hv, C62_unique.2 h2 hv'] at h3
    exact (h3 hs).elim
  · exact ⟨fun _ => ⟨vs, vs', hv, hv', hs⟩, fun _ => h⟩

/-- Other errors are the errors of the new grammar. -/
theorem C62_syntaxError {raw : Bool} {ts : List Tok} : parseFile .both raw ts = .syntaxError ↔ ¬ ∃ us, File newG raw ts us := by
  rcases parseFile_both (raw := raw) (ts := ts) with ⟨h, hn⟩ | ⟨vs, vs', hv, hv', ⟨h, hs⟩ | ⟨h, hs⟩⟩
  · exact ⟨fun _ => hn, fun _ => h⟩
  · rw [h]
    exact ⟨nofun, fun h' => (h' ⟨_, hv⟩).elim⟩
  · rw [h]
    exact ⟨nofun, fun h' => (h' ⟨_, hv⟩).elim⟩

/-- The assertion that both files have the same number of expressions holds. -/
theorem C62_no_panic (mode : ParserMode) {raw : Bool} {ts : List Tok} : parseFile mode raw ts ≠ .panic := by
  cases mode with
  | new =>
    unfold parseFile parseByMode
    cases parse newG raw ts <;> exact fun h => by cases h
  | old =>
    unfold parseFile parseByMode
    cases parse oldG raw ts <;> exact fun h => by cases h
  | both =>
    rcases parseFile_both (raw := raw) (ts := ts) with ⟨h, -⟩ | ⟨_, _, _, _, ⟨h, -⟩ | ⟨h, -⟩⟩ <;>
      · rw [h]
        exact fun h => by cases h

theorem Both.meaning [Doms] [Interp] {e e' : RExpr} (hb : Both e e') (hr : Reassoc e e') : SameMeaning e e' := by
  obtain ⟨ts, h, h'⟩ := hb
  intro st
  have := hr.resolve st
  generalize hm : resE e st = m at this
  generalize hm' : resE e' st = m' at this
  cases this with
  | error x => exact .error x
  | ok hra =>
    refine .ok fun pre imp Γ b Γ₁ b' Γ₁' hc hc' => ?_
    exact hra.meaning (resE_bare _ h.content.2 hm) (resE_bare _ h'.content.2 hm') hc hc'

/-- Accepted files mean the same with both grammars: the expressions are pairwise resolved in the same way, and have the same values if the type checker
accepts both. It is missing that the type checker accepts both or neither. -/
theorem C62_meaning_partial [Doms] [Interp] {raw : Bool} {ts : List Tok} {us : List RUnit} (h : parseFile .both raw ts = .ok us) :
    ∃ us', File oldG raw ts us' ∧ us.map skelU = us'.map skelU ∧ List.Forall₂ SameMeaning (exprsF us) (exprsF us') := by
  obtain ⟨h1, us', h2, h3⟩ := C62_accepted.1 h
  obtain ⟨us'', h4, h5, h6⟩ := File.old h1
  have heq := C62_unique.2 h4 h2
  subst heq
  exact ⟨us'', h2, h3.skel, List.forall₂_iff_zip.2 ⟨h6.length_eq, fun {a b} hm =>
    ((List.forall₂_iff_zip.1 h6).2 hm).meaning ((List.forall₂_iff_zip.1 h3.exprs).2 hm)⟩⟩

/-! ## Examples -/

section Examples

private def x (s : String) : Ident := ⟨s, 0⟩
private def v (s : String) : RExpr := .var none (x s)

private theorem exVar (G : Prec) (s : String) : ∀ k, k ≤ G.top → Ex G k [.id (x s)] (v s) := (Ex.atom (.var _)).raise

/-- `assert a ∘ b ∘ c` -/
private def chainToks (o p : RBin) : List Tok := [.kw (.assert .down), .id (x "a"), .op o, .id (x "b"), .op p, .id (x "c")]

private theorem chainFile {G : Prec} {o p : RBin} {e : RExpr} (h : Derives G [.id (x "a"), .op o, .id (x "b"), .op p, .id (x "c")] e) :
    File G true (chainToks o p) [.raw [.assert .down e]] := by
  have := St.expr (.assert .down) h
  exact .raw (Sts.cons this .nil)

private theorem leftEx {G : Prec} {o p : RBin} {k : Nat} (hk : k + 1 ≤ G.top) (ho : G.lev o = k + 1) (hp : G.lev p = k + 1) (hs : G.side (k + 1) = .left) :
    Ex G (k + 1) [.id (x "a"), .op o, .id (x "b"), .op p, .id (x "c")] (.bin none p (.bin none o (v "a") (v "b")) (v "c")) :=
  Ex.left p hp hs (Ex.left (l := [.id (x "a")]) (r := [.id (x "b")]) o ho hs (exVar G _ _ hk) (exVar G _ _ (by omega))) (exVar G _ _ (by omega))

private theorem rightEx {G : Prec} {o p : RBin} {k : Nat} (hk : k + 1 ≤ G.top) (ho : G.lev o = k + 1) (hp : G.lev p = k + 1) (hs : G.side (k + 1) = .right) :
    Ex G (k + 1) [.id (x "a"), .op o, .id (x "b"), .op p, .id (x "c")] (.bin none o (v "a") (.bin none p (v "b") (v "c"))) :=
  Ex.right (l := [.id (x "a")]) o ho hs (exVar G _ _ (by omega)) (Ex.right (l := [.id (x "b")]) p hp hs (exVar G _ _ (by omega)) (exVar G _ _ hk))

/-- The trees of `assert a ± b ± c`. -/
private theorem newFile {o p : RBin} (ho : newG.lev o = 2) (hp : newG.lev p = 2) :
    File newG true (chainToks o p) [.raw [.assert .down (.bin none p (.bin none o (v "a") (v "b")) (v "c"))]] :=
  chainFile ((leftEx (k := 1) (by decide) ho hp rfl).raiseTo 7 (by decide))

private theorem oldFile {o p : RBin} (ho : oldG.lev o = 2) (hp : oldG.lev p = 2) :
    File oldG true (chainToks o p) [.raw [.assert .down (.bin none o (v "a") (.bin none p (v "b") (v "c")))]] :=
  chainFile ((rightEx (k := 1) (by decide) ho hp rfl).raiseTo 5 (by decide))

/-- `a + b + c` is bracketed in another way, and accepted. -/
private theorem add_accepted : parseFile .both true (chainToks .add .add) = .ok [.raw [.assert .down (.bin none .add (.bin none .add (v "a") (v "b")) (v "c"))]] :=
  C62_accepted.2 ⟨newFile rfl rfl, _, oldFile rfl rfl, rfl, .cons (.assoc .add _ _ _) .nil⟩

/-- `a - b + c` is rejected: it was `a - (b + c)`. -/
example : parseFile .both true (chainToks .sub .add) = .changed := by
  refine C62_changed.2 ⟨_, _, newFile rfl rfl, oldFile rfl rfl, fun h => ?_⟩
  have h := h.exprs
  simp only [exprsF, exprsU, exprsB, exprsS, List.flatMap_cons, List.flatMap_nil, List.append_nil, List.forall₂_cons, List.forall₂_nil_left_iff] at h
  have := h.1.norm
  simp [norm, isAssoc, graft, v] at this

/-- `a <= b <= c` is a syntax error. (The old grammar accepts it.) -/
example : parseFile .both true (chainToks .le .le) = .syntaxError := by
  refine C62_syntaxError.2 ?_
  rintro ⟨us, h⟩
  cases h with
  | raw h =>
    obtain ⟨-, N, h⟩ := h.parse newG_ok
    have h := h (N + 40) (by omega) [] trivial
    rw [show pSts newG (N + 40) (chainToks .le .le ++ []) = some ([.assert .down (.bin none .le (v "a") (v "b"))], [.op .le, .id (x "c")]) from rfl] at h
    injection h with h
    injection h with _ h
    cases h

/-- Types for which the bracketing matters. -/
private def tys : Ctx := fun y =>
  if y = x "a" then some (.var (.val .int) .mut) else if y = x "b" then some (.var (.val .ureal) .mut) else if y = x "c" then some (.var (.val .real) .mut)
  else none

/-- Types for which it does not matter for the type checker. -/
private def tys' : Ctx := fun y =>
  if y = x "a" then some (.var (.val .uint) .mut) else if y = x "b" then some (.var (.val .ureal) .mut) else if y = x "c" then some (.var (.val .eureal) .mut)
  else none

/-- The type checker accepts both trees for `a + b + c` and casts different operands. -/
example : (check false false (.bin none .add (.bin none .add (v "a") (v "b")) (v "c")) tys').isSome = true ∧
    (check false false (.bin none .add (v "a") (.bin none .add (v "b") (v "c"))) tys').isSome = true := ⟨rfl, rfl⟩

/-- The type checker can accept a tree and reject another bracketing. -/
theorem C62_not_full [Doms] [Interp] : ¬ C62_full := by
  intro h
  obtain ⟨us', h1, -, h3⟩ := h _ _ _ add_accepted
  rw [C62_unique.2 h1 (oldFile rfl rfl)] at h3
  simp only [exprsF, exprsU, exprsB, exprsS, List.flatMap_cons, List.flatMap_nil, List.append_nil, List.forall₂_cons] at h3
  have := h3.1.2 false false tys
  rw [show (check false false (.bin none .add (.bin none .add (v "a") (v "b")) (v "c")) tys).isSome = false from rfl,
    show (check false false (.bin none .add (v "a") (.bin none .add (v "b") (v "c"))) tys).isSome = true from rfl] at this
  cases this

end Examples

end Parse
end Caesar
