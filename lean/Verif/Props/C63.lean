import Verif.Parse.PrintParse
import Verif.Props.C62

/-!
# C63: printed programs can be parsed again

`--print-parsed` prints files as they were parsed. The output is meant to be HeyVL. For all layouts, it is accepted in the default mode (both grammars give
the same tree, as everything is in parentheses), and it is the same file up to parentheses, for files without `let`, numbers with a decimal point, calls as
statements, functions in domains and calculus annotations. Each of these is printed in a wrong way (`C63_not_full`, `C63_not_let`, `C63_not_call`,
`C63_not_func`, `C63_calculus`).
-/

namespace Caesar
namespace Parse

open Front

/-! ## Specification -/

/-- Two files are the same except for parentheses. -/
def SameProgram (us us' : List RUnit) : Prop := us.map (mapU unparen) = us'.map (mapU unparen)

/-- The full property: printing a parsed file and parsing the output again gives the same file. -/
def C63_full : Prop :=
  ∀ raw ts us, File newG raw ts us → ∀ out, PrF us out → ∃ us', parseFile .both raw out = .ok us' ∧ SameProgram us us'

/-! ## Theorems -/

theorem parseFile_same {raw : Bool} {ts : List Tok} {us : List RUnit} (h : File newG raw ts us) (h' : File oldG raw ts us) :
    parseFile .both raw ts = .ok us := by
  refine C62_accepted.2 ⟨h, us, h', rfl, ?_⟩
  exact List.forall₂_same.2 fun e _ => .refl e

/-- The printed file is accepted, for each layout. Calculus annotations are lost. -/
theorem C63_calculus_partial {raw : Bool} {ts : List Tok} {us : List RUnit} (h : File newG raw ts us) (hn : ∀ u ∈ us, NoCallsU u)
    (hp : ∀ e ∈ exprsF us, Plain e) {out : List Tok} (hout : PrF us out) :
    ∃ us', parseFile .both raw out = .ok us' ∧ SameProgram (us.map noCalculus) us' := by
  have hok : ∀ e ∈ exprsF us, PrintOk e ∧ Bare e := by
    intro e he
    obtain ⟨es, hd⟩ := h.derives e he
    exact ⟨(hd.ok newG_ok (hp e he)).1, hd.content.2⟩
  have hmem : ∀ u ∈ us, ∀ e ∈ exprsU u, e ∈ exprsF us := fun u hu e he => List.mem_flatMap.2 ⟨u, hu, he⟩
  have hcal : ∀ f u, mapU f (noCalculus u) = noCalculus (mapU f u) := by
    intro f u
    cases u <;> rfl
  have hsame : SameProgram (us.map noCalculus) (us.map fun u => noCalculus (mapU rep u)) := by
    unfold SameProgram
    rw [List.map_map, List.map_map]
    refine List.map_congr_left fun u hu => ?_
    simp only [Function.comp_apply, hcal]
    rw [mapU_rep fun e he => (hok e (hmem u hu e he)).2]
  cases h with
  | decls h =>
    have hu : ∀ u ∈ us, OkU u ∧ ∀ ss, u ≠ .raw ss := by
      intro u hu
      obtain ⟨ts, hd⟩ := h.mem u hu
      refine ⟨hd.ok (hn u hu) fun e he => (hok e (hmem u hu e he)).1, ?_⟩
      cases hd <;> exact nofun
    exact ⟨_, parseFile_same (.decls (print_decls newG_ok hout hu)) (.decls (print_decls oldG_ok hout hu)), hsame⟩
  | @raw _ ss h =>
    have hb : OkB ss := h.ok (hn _ (.head _)) fun e he => (hok e (hmem _ (.head _) e he)).1
    cases hout with
    | cons hr hnil =>
      cases hnil
      cases hr with
      | raw hr =>
        rw [List.append_nil]
        exact ⟨_, parseFile_same (.raw (print_stmts newG_ok hr hb)) (.raw (print_stmts oldG_ok hr hb)), hsame⟩

/-- The printed file is accepted, and it is the same file up to parentheses. Missing: `let`, decimal points, calls as statements, functions, calculi. -/
theorem C63_partial {raw : Bool} {ts : List Tok} {us : List RUnit} (h : File newG raw ts us) (hn : ∀ u ∈ us, NoCallsU u)
    (hp : ∀ e ∈ exprsF us, Plain e) (hc : ∀ u ∈ us, noCalculus u = u) {out : List Tok} (hout : PrF us out) :
    ∃ us', parseFile .both raw out = .ok us' ∧ SameProgram us us' := by
  obtain ⟨us', h1, h2⟩ := C63_calculus_partial h hn hp hout
  rw [List.map_congr_left hc, List.map_id'] at h2
  exact ⟨us', h1, h2⟩

/-! ## Examples -/

section Examples

private def x (s : String) : Ident := ⟨s, 0⟩
private def v (s : String) : RExpr := .var none (x s)

/-- What the parser gives for a raw file, if it gives anything. -/
private theorem raw_inv {ts : List Tok} {us : List RUnit} (h : File newG true ts us) : ∃ N ss, us = [.raw ss] ∧ pSts newG (N + 40) (ts ++ []) = some (ss, []) := by
  cases h with
  | raw h =>
    obtain ⟨-, N, h⟩ := h.parse newG_ok
    exact ⟨N, _, rfl, h (N + 40) (by omega) [] trivial⟩

private theorem both_new {raw : Bool} {ts : List Tok} {us : List RUnit} (h : parseFile .both raw ts = .ok us) : File newG raw ts us := (C62_accepted.1 h).1

private theorem at1 {G : Prec} {ts : List Tok} {e : RExpr} (h : Atom G ts e) (k : Nat) (hk : k ≤ G.top) : Ex G k ts e := (Ex.atom h).raise k hk

private def oneHalf : ℚ≥0 := ⟨⟨1, 2, by decide, by decide⟩, by rw [← Rat.num_nonneg]; decide⟩

/-- `assert x / 0.5`, printed as `assert (x / 1/2)`. -/
private def half : RExpr := .bin none .div (v "x") (.lit none (.frac oneHalf))

private theorem half_file : File newG true [.kw (.assert .down), .id (x "x"), .op .div, .lit (.frac oneHalf)] [.raw [.assert .down half]] := by
  refine .raw (Sts.cons (ts := [.kw (.assert .down), .id (x "x"), .op .div, .lit (.frac oneHalf)]) (.expr (.assert .down) ?_) .nil)
  exact derives_bin newG_ok (ts := [.id (x "x")]) (.var _) (.lit _)

private def half_out : List Tok := [.kw (.assert .down), .lpar, .id (x "x"), .op .div, .lit (.uint 1), .op .div, .lit (.uint 2), .rpar]

private theorem half_print : PrF [.raw [.assert .down half]] half_out := by
  exact PrF.cons (.raw (.one (.assert .down half))) .nil

/-- A number with a decimal point is printed as a fraction without parentheses: `x / 0.5` becomes `(x / 1) / 2`. -/
theorem C63_not_full : ¬ C63_full := by
  intro h
  obtain ⟨us', h1, h2⟩ := h true _ _ half_file _ half_print
  obtain ⟨N, ss, rfl, h3⟩ := raw_inv (both_new h1)
  rw [show pSts newG (N + 40) (half_out ++ []) = some ([.assert .down (.un none .parens (.bin none .div (.bin none .div (v "x") (.lit none (.uint 1)))
    (.lit none (.uint 2))))], []) from rfl] at h3
  cases h3
  simp [SameProgram, mapU, mapB, mapS, unparen, half, v] at h2

/-- With the new grammar the output is accepted, with another meaning. -/
theorem C63_fraction : File newG true half_out [.raw [.assert .down (.un none .parens (.bin none .div (.bin none .div (v "x") (.lit none (.uint 1)))
    (.lit none (.uint 2))))]] := by
  refine .raw (Sts.cons (ts := half_out) (.expr (.assert .down) ?_) .nil)
  refine Atom.derives (Atom.parens (ts := [.id (x "x"), .op .div, .lit (.uint 1), .op .div, .lit (.uint 2)]) ?_)
  refine (Ex.left (G := newG) (k := 0) (l := [.id (x "x"), .op .div, .lit (.uint 1)]) .div rfl rfl ?_ (at1 (.lit _) _ (by decide))).raiseTo 8 (by decide)
  exact Ex.left (l := [.id (x "x")]) .div rfl rfl (at1 (.var _) _ (by decide)) (at1 (.lit _) _ (by decide))

/-- `let(x, 1, x)` is printed as `(x)[x -> 1]`, which is not HeyVL. -/
theorem C63_not_let : ∃ ts us out, File newG true ts us ∧ PrF us out ∧ ¬ ∃ us', File newG true out us' := by
  refine ⟨[.kw (.assert .down), .letT, .lpar, .id (x "x"), .comma, .lit (.uint 1), .comma, .id (x "x"), .rpar],
    [.raw [.assert .down (.subst none (x "x") (.lit none (.uint 1)) (v "x"))]], _, ?_, .cons (.raw (.one (.assert _ _))) .nil, ?_⟩
  · refine .raw (Sts.cons (ts := [.kw (.assert .down), .letT, .lpar, .id (x "x"), .comma, .lit (.uint 1), .comma, .id (x "x"), .rpar])
      (.expr (.assert .down) (Atom.derives ?_)) .nil)
    exact Atom.subst (ts := [.lit (.uint 1)]) (us := [.id (x "x")]) (x "x") (Atom.derives (.lit _)) (Atom.derives (.var _))
  · rintro ⟨us', h⟩
    obtain ⟨N, ss, -, h1⟩ := raw_inv h
    replace h1 : some ([RStmt.assert .down (.un none .parens (v "x"))], [Tok.lbrk, .id (x "x"), .arrow, .lit (.uint 1), .rbrk]) = some (ss, []) := h1
    cases h1

/-- The statement `f()` is printed as `= f()`. -/
theorem C63_not_call : ∃ ts us out, File newG true ts us ∧ PrF us out ∧ ¬ ∃ us', File newG true out us' := by
  refine ⟨[.id (x "f"), .lpar, .rpar], [.raw [.assign [] (.call none (x "f") [])]], _, ?_, .cons (.raw (.one (.assign _ _))) .nil, ?_⟩
  · exact .raw (Sts.cons (ts := [.id (x "f"), .lpar, .rpar]) (.call (x "f") .nil) .nil)
  · rintro ⟨us', h⟩
    obtain ⟨N, ss, -, h1⟩ := raw_inv h
    replace h1 : some (([] : List RStmt), [Tok.eqT, .id (x "f"), .lpar, .rpar]) = some (ss, []) := h1
    cases h1

/-- Functions are printed as `fn f() -> T`, not as `func f(): T`. -/
theorem C63_not_func : ∃ ts us out, File newG false ts us ∧ PrF us out ∧ ¬ ∃ us', File newG false out us' := by
  refine ⟨[.kw .domain, .id (x "D"), .lbrace, .kw .func, .id (x "f"), .lpar, .rpar, .ofTy .int, .rbrace],
    [.domain (x "D") [.func (x "f") [] .int none]], _, ?_, .cons (.domain _ _) .nil, ?_⟩
  · exact .decls (Des.cons (ts := [.kw .domain, .id (x "D"), .lbrace, .kw .func, .id (x "f"), .lpar, .rpar, .ofTy .int, .rbrace])
      (De.domain (ts := [.kw .func, .id (x "f"), .lpar, .rpar, .ofTy .int]) (x "D") (.func (x "f") .int .nil .nil)) .nil)
  · rintro ⟨us', h⟩
    cases h with
    | decls h =>
      obtain ⟨N, h⟩ := h.parse newG_ok
      have h := h (N + 40) (by omega)
      rw [show pDes newG (N + 40) _ = none from rfl] at h
      cases h

/-- The calculus of a procedure is lost, so that it is not checked any more. -/
theorem C63_calculus : ∃ ts us out us', File newG false ts us ∧ PrF us out ∧ parseFile .both false out = .ok us' ∧ ¬ SameProgram us us' := by
  have h : ∀ G, File G false [.kw (.proc .down), .id (x "f"), .lpar, .rpar, .arrow, .lpar, .rpar] [.proc ⟨⟨x "f", .down, [], [], [], none⟩, none⟩] :=
    fun G => .decls (Des.cons (De.proc (as := []) (is := []) (os := []) (ss := []) (bs := []) .down (x "f") .absent .nil .nil .nil .absent) .nil)
  refine ⟨[.atT, .id (x "wp"), .kw (.proc .down), .id (x "f"), .lpar, .rpar, .arrow, .lpar, .rpar],
    [.proc ⟨⟨x "f", .down, [], [], [], none⟩, some (x "wp")⟩], [.kw (.proc .down), .id (x "f"), .lpar, .rpar, .arrow, .lpar, .rpar],
    [.proc ⟨⟨x "f", .down, [], [], [], none⟩, none⟩], ?_, ?_, parseFile_same (h _) (h _), ?_⟩
  · exact .decls (Des.cons (De.proc (as := [.atT, .id (x "wp")]) (is := []) (os := []) (ss := []) (bs := []) .down (x "f") (.given _) .nil .nil .nil .absent) .nil)
  · exact .cons (.procDecl _ rfl) .nil
  · simp [SameProgram, mapU]

/-- A file that is printed and parsed again: `proc f(a: UInt) -> () pre a + 1 { if ⊓ { assert a } else { havoc b; f = a - (inf y: UInt. y) } }`. -/
private def sample : List RUnit :=
  [.proc ⟨⟨x "f", .down, [param ⟨x "a", .uint⟩], [], [.requires (.bin none .add (v "a") (.lit none (.uint 1)))],
    some [.demonic [.assert .down (v "a")] [.havoc .down [x "b"], .assign [x "f"] (.bin none .sub (v "a")
      (.un none .parens (.quant none .inf [⟨true, ⟨x "y", .uint⟩⟩] [] (v "y"))))]]⟩, none⟩]

private theorem sample_file : ∃ ts, File newG false ts sample := by
  have hq : Ex newG newG.top [.q .inf, .decl ⟨x "y", .uint⟩, .dot, .id (x "y")] (.quant none .inf [⟨true, ⟨x "y", .uint⟩⟩] [] (v "y")) :=
    Ex.quant (vs := [.decl ⟨x "y", .uint⟩]) (as := []) .inf (.one _) .empty (Atom.derives (.var _))
  exact ⟨_, .decls (.cons (.proc .down (x "f") .absent (.one ⟨x "a", .uint⟩) .nil (.pre (derives_bin newG_ok (.var _) (.lit _)) .nil)
    (.given (.mk (.cons (.choice .cap (.mk (.cons (.expr (.assert .down) (Atom.derives (.var _))) .nil))
      (.mk (.semi (.havoc .down (.one _)) (.cons (.assign (.one _) (derives_bin newG_ok (.var _) (.parens hq))) .nil)))) .nil)))) .nil)⟩

example : ∃ ts, File newG false ts sample ∧ (∀ u ∈ sample, NoCallsU u) ∧ (∀ e ∈ exprsF sample, Plain e) ∧ (∀ u ∈ sample, noCalculus u = u) ∧
    ∃ out, PrF sample out := by
  obtain ⟨ts, h⟩ := sample_file
  refine ⟨ts, h, ?_, ?_, ?_, _, .cons (.proc none rfl (.one (.demonic (.one (.assert _ _)) (.semi (.havoc _ _) (.one (.assign _ _)))))) .nil⟩
  · simp [sample, NoCallsU, NoCallsB, NoCalls]
  · simp [sample, exprsF, exprsU, exprsB, exprsS, RSpec.ex, Plain, PlainLL, isFrac, v]
  · simp [sample, noCalculus]

end Examples

end Parse
end Caesar
