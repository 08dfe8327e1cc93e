import Verif.Parse.Descent

/-!
# The grammars are unambiguous: statements and declarations

The continuation of `Verif.Parse.Descent`.
-/

namespace Caesar
namespace Parse

open Front

def pIds : List Tok → Option (List Ident × List Tok)
  | .id x :: .comma :: ts =>
    match pIds ts with
    | some (xs, r) => some (x :: xs, r)
    | none => none
  | .id x :: ts => some ([x], ts)
  | _ => none

def pChoice : List Tok → Option (Choice × List Tok)
  | .op .add :: ts => some (.additive, ts)
  | .oplus :: ts => some (.additive, ts)
  | .op .inf :: ts => some (.demonic, ts)
  | .op .sup :: ts => some (.angelic, ts)
  | _ => none

def exprKw : Kw → Option (RExpr → RStmt)
  | .assert d => some (.assert d)
  | .assume d => some (.assume d)
  | .compare d => some (.compare d)
  | .tick => some .tick
  | .weigh => some .weigh
  | _ => none

def pInputs (G : Prec) (n : Nat) : List Tok → Option (List RExpr × List Tok)
  | .lpar :: ts => do
    let (es, ts) ← pArgs G n ts
    let ts ← expectRPar ts
    return (es, ts)
  | ts => some ([], ts)

def expectEq : List Tok → Option (List Tok)
  | .eqT :: ts => some ts
  | _ => none

def expectElse : List Tok → Option (List Tok)
  | .kw .elseT :: ts => some ts
  | _ => none

def expectRBrace : List Tok → Option (List Tok)
  | .rbrace :: ts => some ts
  | _ => none

def skipSemi : List Tok → List Tok
  | .semi :: ts => ts
  | ts => ts

def startsStmt : List Tok → Bool
  | .lbrace :: _ | .kw _ :: _ | .id _ :: _ | .atT :: _ => true
  | _ => false

/-- Statements with a keyword and no other statements inside. -/
def pKw (G : Prec) (n : Nat) (k : Kw) (ts : List Tok) : Option (RStmt × List Tok) :=
  match k with
  | .var =>
    match ts with
    | .decl v :: .eqT :: ts => do
      let (e, ts) ← pEx G n G.top ts
      return (.var v.id v.ty (some e), ts)
    | .decl v :: ts => some (.var v.id v.ty none, ts)
    | _ => none
  | .havoc d => do
    let (xs, ts) ← pIds ts
    return (.havoc d xs, ts)
  | .negate d => some (.negate d, ts)
  | .validate d => some (.validate d, ts)
  | .label =>
    match ts with
    | .id l :: ts => some (.label l, ts)
    | _ => none
  | k => do
    let s ← exprKw k
    let (e, ts) ← pEx G n G.top ts
    return (s e, ts)

mutual

def pSt (G : Prec) : Nat → List Tok → Option (RStmt × List Tok)
  | 0, _ => none
  | n + 1, ts =>
    match ts with
    | .lbrace :: ts => do
      let (ss, ts) ← pBl G n (.lbrace :: ts)
      return (.seq ss, ts)
    | .id f :: .lpar :: ts => do
      let (as, ts) ← pArgs G n ts
      let ts ← expectRPar ts
      return (.assign [] (.call none f as), ts)
    | .kw .ifT :: ts =>
      match pChoice ts with
      | some (c, ts) => do
        let (a, ts) ← pBl G n ts
        let ts ← expectElse ts
        let (b, ts) ← pBl G n ts
        return (c.stmt a b, ts)
      | none => do
        let (c, ts) ← pEx G n G.top ts
        let (a, ts) ← pBl G n ts
        let ts ← expectElse ts
        let (b, ts) ← pBl G n ts
        return (.ite c a b, ts)
    | .kw .whileT :: ts => do
      let (c, ts) ← pEx G n G.top ts
      let (a, ts) ← pBl G n ts
      return (.while c a, ts)
    | .atT :: .id f :: ts => do
      let (as, ts) ← pInputs G n ts
      let (s, ts) ← pSt G n ts
      return (.annot f as s, ts)
    | .kw k :: ts => pKw G n k ts
    | ts => do
      let (xs, ts) ← pIds ts
      let ts ← expectEq ts
      let (e, ts) ← pEx G n G.top ts
      return (.assign xs e, ts)

def pBl (G : Prec) : Nat → List Tok → Option (List RStmt × List Tok)
  | 0, _ => none
  | n + 1, ts =>
    match ts with
    | .lbrace :: ts => do
      let (ss, ts) ← pSts G n ts
      let ts ← expectRBrace ts
      return (ss, ts)
    | _ => none

def pSts (G : Prec) : Nat → List Tok → Option (List RStmt × List Tok)
  | 0, _ => none
  | n + 1, ts =>
    if startsStmt ts then do
      let (s, ts) ← pSt G n ts
      let (ss, ts) ← pSts G n (skipSemi ts)
      return (s :: ss, ts)
    else some ([], ts)

end

/-! ## Completeness -/

/-- The next token does not continue a statement. -/
def StopS : List Tok → Prop
  | .op _ :: _ | .lpar :: _ | .eqT :: _ | .comma :: _ => False
  | _ => True

theorem StopS.stop {G : Prec} {k : Nat} {r : List Tok} (h : StopS r) : Stop G k r := by
  cases r with
  | nil => trivial
  | cons t r => cases t <;> trivial

theorem startsStmt_stop {ts : List Tok} (h : startsStmt ts = true) : StopS ts := by
  cases ts with
  | nil => trivial
  | cons t r => cases t <;> trivial

theorem startsStmt_append {ts r : List Tok} (h : startsStmt ts = true) : startsStmt (ts ++ r) = true := by
  cases ts with
  | nil => cases h
  | cons t ts => cases t <;> first | rfl | cases h

/-- Tokens after a list of statements. -/
def EndS : List Tok → Prop
  | [] => True
  | .rbrace :: _ => True
  | _ => False

theorem EndS.stop {r : List Tok} (h : EndS r) : StopS r := by
  cases r with
  | nil => trivial
  | cons t r => cases t <;> trivial

theorem EndS.starts {r : List Tok} (h : EndS r) : startsStmt r = false := by
  cases r with
  | nil => rfl
  | cons t r => cases t <;> first | rfl | exact h.elim

theorem EndS.semi {r : List Tok} (h : EndS r) : skipSemi r = r := by
  cases r with
  | nil => rfl
  | cons t r => cases t <;> first | rfl | exact h.elim

theorem Ids.parse {ts : List Tok} {xs : List Ident} (h : Ids ts xs) {r : List Tok} (hr : ∀ r', r ≠ .comma :: r') :
    pIds (ts ++ r) = some (xs, r) := by
  induction h with
  | one v =>
    cases r with
    | nil => rfl
    | cons t r => cases t <;> first | rfl | exact (hr _ rfl).elim
  | cons v h ih => simp [pIds, ih]

theorem StopS.comma {r : List Tok} (h : StopS r) : ∀ r', r ≠ .comma :: r' := by
  rintro r' rfl
  exact h

theorem Args.parse {G : Prec} (hG : G.Ok) {ts : List Tok} {es : List RExpr} (h : Args G ts es) : ArgsP G ts es := by
  induction es generalizing ts with
  | nil =>
    cases h
    refine ⟨1, fun n hn r => ?_⟩
    obtain ⟨m, rfl, hm⟩ := le_succ_exists hn
    rfl
  | cons e es ih =>
    cases h with
    | one h =>
      obtain ⟨-, hs, ⟨N, h⟩, -⟩ := h.parse hG
      refine ⟨N + 1, fun n hn r => ?_⟩
      obtain ⟨m, rfl, hm⟩ := le_succ_exists hn
      rw [pArgs, hs.append.rpar, h m hm _ stop_rpar]
      rfl
    | cons h hs =>
      obtain ⟨-, hst, ⟨N, h⟩, -⟩ := h.parse hG
      obtain ⟨M, hs⟩ := ih hs
      refine ⟨max N M + 1, fun n hn r => ?_⟩
      obtain ⟨m, rfl, hm⟩ := le_succ_exists hn
      rw [List.append_assoc, pArgs, hst.append.rpar, List.cons_append, h m (by omega) _ stop_comma]
      simp only [Bool.false_eq_true, if_false, Option.bind_eq_bind, Option.bind_some, expectComma]
      rw [hs m (by omega)]
      rfl

theorem ExprKw.eq {k : Kw} {s : RExpr → RStmt} (h : ExprKw k s) : exprKw k = some s := by cases h <;> rfl

theorem ExprKw.pKw {G : Prec} {k : Kw} {s : RExpr → RStmt} (h : ExprKw k s) (n : Nat) (ts : List Tok) :
    pKw G n k ts = (pEx G n G.top ts).bind fun p => some (s p.1, p.2) := by cases h <;> rfl

theorem ExprKw.pSt {G : Prec} {k : Kw} {s : RExpr → RStmt} (h : ExprKw k s) (n : Nat) (ts : List Tok) :
    pSt G (n + 1) (.kw k :: ts) = Parse.pKw G n k ts := by cases h <;> rfl

theorem ChoiceTok.eq {t : Tok} {c : Choice} (h : ChoiceTok t c) (ts : List Tok) : pChoice (t :: ts) = some (c, ts) := by cases h <;> rfl

theorem Starts.choice {G : Prec} {k : Nat} {ts : List Tok} (h : Starts G k ts) : pChoice ts = none := by
  cases ts with
  | nil => rfl
  | cons t ts =>
    rcases h with h | ⟨-, o, rfl⟩
    · cases t <;> first | rfl | cases h
    · rfl

def StP (G : Prec) (ts : List Tok) (s : RStmt) : Prop :=
  startsStmt ts = true ∧ ∃ N, ∀ n ≥ N, ∀ r, StopS r → pSt G n (ts ++ r) = some (s, r)

def BlP (G : Prec) (ts : List Tok) (ss : List RStmt) : Prop :=
  (∃ us, ts = .lbrace :: us) ∧ ∃ N, ∀ n ≥ N, ∀ r, pBl G n (ts ++ r) = some (ss, r)

def StsP (G : Prec) (ts : List Tok) (ss : List RStmt) : Prop :=
  (startsStmt ts = true ∨ ts = []) ∧ ∃ N, ∀ n ≥ N, ∀ r, EndS r → pSts G n (ts ++ r) = some (ss, r)

theorem Inputs.parse {G : Prec} (hG : G.Ok) {ts : List Tok} {es : List RExpr} (h : Inputs G ts es) :
    ∃ N, ∀ n ≥ N, ∀ r, StopS r → pInputs G n (ts ++ r) = some (es, r) := by
  cases h with
  | absent =>
    refine ⟨0, fun n hn r hr => ?_⟩
    cases r with
    | nil => rfl
    | cons t r => cases t <;> first | rfl | exact hr.elim
  | given h =>
    obtain ⟨N, h⟩ := h.parse hG
    refine ⟨N, fun n hn r hr => ?_⟩
    simp only [List.cons_append, List.append_assoc, List.nil_append, pInputs]
    rw [h n hn]
    rfl

theorem stop_lbrace {G : Prec} {k : Nat} {ts : List Tok} (h : ∃ us, ts = .lbrace :: us) (r : List Tok) : Stop G k (ts ++ r) := by
  obtain ⟨us, rfl⟩ := h
  trivial

theorem StsP.stop {G : Prec} {us : List Tok} {ss : List RStmt} (h : StsP G us ss) {r : List Tok} (hr : EndS r) : StopS (us ++ r) := by
  rcases h.1 with h | rfl
  · exact startsStmt_stop (startsStmt_append h)
  · exact hr.stop

theorem StsP.semi {G : Prec} {us : List Tok} {ss : List RStmt} (h : StsP G us ss) {r : List Tok} (hr : EndS r) :
    skipSemi (us ++ r) = us ++ r := by
  rcases h.1 with h | rfl
  · cases us with
    | nil => cases h
    | cons t us => cases t <;> first | rfl | cases h
  · exact hr.semi

theorem Sts.parse {G : Prec} (hG : G.Ok) {ts : List Tok} {ss : List RStmt} (h : Sts G ts ss) : StsP G ts ss := by
  induction h using Sts.rec (motive_1 := fun ts s _ => StP G ts s) (motive_2 := fun ts ss _ => BlP G ts ss) with
  | seq h ih =>
    obtain ⟨⟨us, rfl⟩, N, h⟩ := ih
    refine ⟨rfl, N + 1, fun n hn r hr => ?_⟩
    obtain ⟨m, rfl, hm⟩ := le_succ_exists hn
    have := h m hm r
    rw [List.cons_append] at this ⊢
    rw [pSt, this]
    rfl
  | varInit v h =>
    obtain ⟨-, -, ⟨N, h⟩, -⟩ := h.parse hG
    refine ⟨rfl, N + 1, fun n hn r hr => ?_⟩
    obtain ⟨m, rfl, hm⟩ := le_succ_exists hn
    simp only [List.cons_append, pSt, pKw]
    rw [h m hm r hr.stop]
    rfl
  | var v =>
    refine ⟨rfl, 1, fun n hn r hr => ?_⟩
    obtain ⟨m, rfl, hm⟩ := le_succ_exists hn
    cases r with
    | nil => rfl
    | cons t r => cases t <;> first | rfl | exact hr.elim
  | @assign ts us xs e hx h =>
    obtain ⟨-, -, ⟨N, h⟩, -⟩ := h.parse hG
    refine ⟨by cases hx <;> rfl, N + 1, fun n hn r hr => ?_⟩
    obtain ⟨m, rfl, hm⟩ := le_succ_exists hn
    have : pSt G (m + 1) (ts ++ .eqT :: (us ++ r)) = (pIds (ts ++ .eqT :: (us ++ r))).bind fun p =>
        (expectEq p.2).bind fun ts => (pEx G m G.top ts).bind fun q => some (.assign p.1 q.1, q.2) := by
      cases hx with
      | one x => rfl
      | cons x hx => rfl
    rw [List.append_assoc, List.cons_append, this, hx.parse (by simp)]
    simp only [Option.bind_some, expectEq]
    rw [h m hm r hr.stop]
    rfl
  | call f h =>
    obtain ⟨N, h⟩ := h.parse hG
    refine ⟨rfl, N + 1, fun n hn r hr => ?_⟩
    obtain ⟨m, rfl, hm⟩ := le_succ_exists hn
    simp only [List.cons_append, List.append_assoc, List.nil_append, pSt]
    rw [h m hm]
    rfl
  | havoc d h =>
    refine ⟨rfl, 1, fun n hn r hr => ?_⟩
    obtain ⟨m, rfl, hm⟩ := le_succ_exists hn
    simp only [List.cons_append, pSt, pKw]
    rw [h.parse hr.comma]
    rfl
  | expr hk h =>
    obtain ⟨-, -, ⟨N, h⟩, -⟩ := h.parse hG
    refine ⟨rfl, N + 1, fun n hn r hr => ?_⟩
    obtain ⟨m, rfl, hm⟩ := le_succ_exists hn
    rw [List.cons_append, hk.pSt, hk.pKw, h m hm r hr.stop]
    rfl
  | negate d =>
    refine ⟨rfl, 1, fun n hn r hr => ?_⟩
    obtain ⟨m, rfl, hm⟩ := le_succ_exists hn
    rfl
  | validate d =>
    refine ⟨rfl, 1, fun n hn r hr => ?_⟩
    obtain ⟨m, rfl, hm⟩ := le_succ_exists hn
    rfl
  | choice ht ha hb iha ihb =>
    obtain ⟨-, N, ha⟩ := iha
    obtain ⟨-, M, hb⟩ := ihb
    refine ⟨rfl, max N M + 1, fun n hn r hr => ?_⟩
    obtain ⟨m, rfl, hm⟩ := le_succ_exists hn
    simp only [List.cons_append, List.append_assoc, pSt]
    rw [ht.eq]
    simp only []
    rw [ha m (by omega)]
    simp only [Option.bind_eq_bind, Option.bind_some, expectElse]
    rw [hb m (by omega)]
    rfl
  | ite hc ha hb iha ihb =>
    obtain ⟨-, hst, ⟨K, hc⟩, -⟩ := hc.parse hG
    obtain ⟨hl, N, ha⟩ := iha
    obtain ⟨-, M, hb⟩ := ihb
    refine ⟨rfl, max K (max N M) + 1, fun n hn r hr => ?_⟩
    obtain ⟨m, rfl, hm⟩ := le_succ_exists hn
    simp only [List.cons_append, List.append_assoc, pSt]
    rw [hst.append.choice]
    simp only []
    rw [hc m (by omega) _ (stop_lbrace hl _)]
    simp only [Option.bind_eq_bind, Option.bind_some]
    rw [ha m (by omega)]
    simp only [Option.bind_some, expectElse]
    rw [hb m (by omega)]
    rfl
  | «while» hc ha iha =>
    obtain ⟨-, hst, ⟨K, hc⟩, -⟩ := hc.parse hG
    obtain ⟨hl, N, ha⟩ := iha
    refine ⟨rfl, max K N + 1, fun n hn r hr => ?_⟩
    obtain ⟨m, rfl, hm⟩ := le_succ_exists hn
    simp only [List.cons_append, List.append_assoc, pSt]
    rw [hc m (by omega) _ (stop_lbrace hl _)]
    simp only [Option.bind_eq_bind, Option.bind_some]
    rw [ha m (by omega)]
    rfl
  | annot f hi h ih =>
    obtain ⟨M, hi⟩ := hi.parse hG
    obtain ⟨hs, N, h⟩ := ih
    refine ⟨rfl, max M N + 1, fun n hn r hr => ?_⟩
    obtain ⟨m, rfl, hm⟩ := le_succ_exists hn
    simp only [List.cons_append, List.append_assoc, pSt]
    rw [hi m (by omega) _ (startsStmt_stop (startsStmt_append hs))]
    simp only [Option.bind_eq_bind, Option.bind_some]
    rw [h m (by omega) r hr]
    rfl
  | label l =>
    refine ⟨rfl, 1, fun n hn r hr => ?_⟩
    obtain ⟨m, rfl, hm⟩ := le_succ_exists hn
    rfl
  | mk h ih =>
    obtain ⟨-, N, h⟩ := ih
    refine ⟨⟨_, rfl⟩, N + 1, fun n hn r => ?_⟩
    obtain ⟨m, rfl, hm⟩ := le_succ_exists hn
    simp only [List.cons_append, List.append_assoc, List.nil_append, pBl]
    rw [h m hm _ (show EndS (.rbrace :: r) from trivial)]
    rfl
  | nil =>
    refine ⟨.inr rfl, 1, fun n hn r hr => ?_⟩
    obtain ⟨m, rfl, hm⟩ := le_succ_exists hn
    rw [List.nil_append, pSts, hr.starts]
    rfl
  | cons h hs ih ihs =>
    have hstop := fun {r} => @StsP.stop _ _ _ ihs r
    have hsemi := fun {r} => @StsP.semi _ _ _ ihs r
    obtain ⟨hst, N, h⟩ := ih
    obtain ⟨-, M, hs⟩ := ihs
    refine ⟨.inl (startsStmt_append hst), max N M + 1, fun n hn r hr => ?_⟩
    obtain ⟨m, rfl, hm⟩ := le_succ_exists hn
    rw [List.append_assoc, pSts, startsStmt_append hst]
    simp only [if_true]
    rw [h m (by omega) _ (hstop hr)]
    simp only [Option.bind_eq_bind, Option.bind_some]
    rw [hsemi hr, hs m (by omega) r hr]
    rfl
  | semi h hs ih ihs =>
    obtain ⟨hst, N, h⟩ := ih
    obtain ⟨-, M, hs⟩ := ihs
    refine ⟨.inl (startsStmt_append hst), max N M + 1, fun n hn r hr => ?_⟩
    obtain ⟨m, rfl, hm⟩ := le_succ_exists hn
    rw [List.append_assoc, pSts, startsStmt_append hst]
    simp only [if_true]
    rw [List.cons_append, h m (by omega) _ (show StopS (.semi :: _) from trivial)]
    simp only [Option.bind_eq_bind, Option.bind_some, skipSemi]
    rw [hs m (by omega) r hr]
    rfl

theorem Bl.parse {G : Prec} (hG : G.Ok) {ts : List Tok} {ss : List RStmt} (h : Bl G ts ss) : BlP G ts ss := by
  obtain ⟨h⟩ := h
  obtain ⟨-, N, h⟩ := h.parse hG
  refine ⟨⟨_, rfl⟩, N + 1, fun n hn r => ?_⟩
  obtain ⟨m, rfl, hm⟩ := le_succ_exists hn
  simp only [List.cons_append, List.append_assoc, List.nil_append, pBl]
  rw [h m hm _ (show EndS (.rbrace :: r) from trivial)]
  rfl

/-! ## Declarations -/

def pParams : List Tok → Option (List Var × List Tok)
  | .decl v :: .comma :: ts =>
    match pParams ts with
    | some (vs, r) => some (v :: vs, r)
    | none => none
  | .decl v :: ts => some ([v], ts)
  | ts => some ([], ts)

theorem Params.parse {ts : List Tok} {vs : List Var} (h : Params ts vs) (r : List Tok) :
    pParams (ts ++ .rpar :: r) = some (vs, .rpar :: r) := by
  induction h with
  | nil => rfl
  | one v => rfl
  | cons v h ih => simp [pParams, ih]

def pSpecs (G : Prec) : Nat → List Tok → Option (List RSpec × List Tok)
  | 0, _ => none
  | n + 1, ts =>
    match ts with
    | .kw .pre :: ts => do
      let (e, ts) ← pEx G n G.top ts
      let (ss, ts) ← pSpecs G n ts
      return (.requires e :: ss, ts)
    | .kw .post :: ts => do
      let (e, ts) ← pEx G n G.top ts
      let (ss, ts) ← pSpecs G n ts
      return (.ensures e :: ss, ts)
    | ts => some ([], ts)

/-- Tokens after the specification of a procedure: the body, the next declaration, or the end. -/
def EndP : List Tok → Prop
  | [] => True
  | .lbrace :: _ | .atT :: _ | .kw (.proc _) :: _ | .kw .domain :: _ => True
  | _ => False

theorem EndP.stop {G : Prec} {k : Nat} {r : List Tok} (h : EndP r) : Stop G k r := by
  cases r with
  | nil => trivial
  | cons t r => cases t <;> trivial

theorem Specs.head {G : Prec} {ts : List Tok} {ss : List RSpec} (h : Specs G ts ss) {k : Nat} {r : List Tok} (hr : EndP r) :
    Stop G k (ts ++ r) := by
  cases h with
  | nil => exact hr.stop
  | pre _ _ => trivial
  | post _ _ => trivial

theorem Specs.parse {G : Prec} (hG : G.Ok) {ts : List Tok} {ss : List RSpec} (h : Specs G ts ss) :
    ∃ N, ∀ n ≥ N, ∀ r, EndP r → pSpecs G n (ts ++ r) = some (ss, r) := by
  induction h with
  | nil =>
    refine ⟨1, fun n hn r hr => ?_⟩
    obtain ⟨m, rfl, hm⟩ := le_succ_exists hn
    cases r with
    | nil => rfl
    | cons t r =>
      cases t <;> first | rfl | skip
      rename_i k
      cases k <;> first | rfl | exact hr.elim
  | pre h hs ih =>
    obtain ⟨-, -, ⟨N, h⟩, -⟩ := h.parse hG
    obtain ⟨M, ih⟩ := ih
    refine ⟨max N M + 1, fun n hn r hr => ?_⟩
    obtain ⟨m, rfl, hm⟩ := le_succ_exists hn
    simp only [List.cons_append, List.append_assoc, pSpecs]
    rw [h m (by omega) _ (hs.head hr)]
    simp only [Option.bind_eq_bind, Option.bind_some]
    rw [ih m (by omega) r hr]
    rfl
  | post h hs ih =>
    obtain ⟨-, -, ⟨N, h⟩, -⟩ := h.parse hG
    obtain ⟨M, ih⟩ := ih
    refine ⟨max N M + 1, fun n hn r hr => ?_⟩
    obtain ⟨m, rfl, hm⟩ := le_succ_exists hn
    simp only [List.cons_append, List.append_assoc, pSpecs]
    rw [h m (by omega) _ (hs.head hr)]
    simp only [Option.bind_eq_bind, Option.bind_some]
    rw [ih m (by omega) r hr]
    rfl

def pBody (G : Prec) (n : Nat) (ts : List Tok) : Option (Option (List RStmt) × List Tok) :=
  match ts with
  | .lbrace :: ts => do
    let (ss, ts) ← pBl G n (.lbrace :: ts)
    return (some ss, ts)
  | ts => some (none, ts)

/-- Tokens after a declaration. -/
def EndD : List Tok → Prop
  | [] => True
  | .atT :: _ | .kw (.proc _) :: _ | .kw .domain :: _ => True
  | _ => False

theorem EndD.endP {r : List Tok} (h : EndD r) : EndP r := by
  unfold EndD at h
  split at h <;> trivial

theorem Body.parse {G : Prec} (hG : G.Ok) {ts : List Tok} {b : Option (List RStmt)} (h : Body G ts b) :
    (∀ r, EndD r → EndP (ts ++ r)) ∧ ∃ N, ∀ n ≥ N, ∀ r, EndD r → pBody G n (ts ++ r) = some (b, r) := by
  cases h with
  | absent =>
    refine ⟨fun r hr => hr.endP, 0, fun n hn r hr => ?_⟩
    cases r with
    | nil => rfl
    | cons t r => cases t <;> first | rfl | exact hr.elim
  | given h =>
    obtain ⟨⟨us, rfl⟩, N, h⟩ := h.parse hG
    refine ⟨fun r hr => trivial, N, fun n hn r hr => ?_⟩
    have := h n hn r
    rw [List.cons_append] at this ⊢
    rw [pBody, this]
    rfl

/-- What follows the type of a function. -/
def pFuncBody (G : Prec) (n : Nat) : List Tok → Option (Option RExpr × List Tok)
  | .computable :: ts => some (none, ts)
  | .eqT :: ts => do
    let (e, ts) ← pEx G n G.top ts
    return (some e, ts)
  | ts => some (none, ts)

def pItems (G : Prec) : Nat → List Tok → Option (List DomItem × List Tok)
  | 0, _ => none
  | n + 1, ts =>
    match ts with
    | .kw .func :: .id f :: .lpar :: ts => do
      let (vs, ts) ← pParams ts
      match ts with
      | .rpar :: .ofTy t :: ts => do
        let (b, ts) ← pFuncBody G n ts
        let (is, ts) ← pItems G n ts
        return (.func f vs t b :: is, ts)
      | _ => none
    | .kw .ax :: .id x :: ts => do
      let (e, ts) ← pEx G n G.top ts
      let (is, ts) ← pItems G n ts
      return (.ax x e :: is, ts)
    | ts => some ([], ts)

theorem Items.head {G : Prec} {ts : List Tok} {is : List DomItem} (h : Items G ts is) (r : List Tok) :
    (∃ k us, ts ++ .rbrace :: r = .kw k :: us) ∨ ts ++ .rbrace :: r = .rbrace :: r := by
  cases h with
  | nil => exact .inr rfl
  | func _ _ _ _ => exact .inl ⟨_, _, rfl⟩
  | computable _ _ _ _ => exact .inl ⟨_, _, rfl⟩
  | funcBody _ _ _ _ _ => exact .inl ⟨_, _, rfl⟩
  | ax _ _ _ => exact .inl ⟨_, _, rfl⟩

theorem Items.stop {G : Prec} {ts : List Tok} {is : List DomItem} (h : Items G ts is) (k : Nat) (r : List Tok) :
    Stop G k (ts ++ .rbrace :: r) := by
  rcases h.head r with ⟨k, us, h⟩ | h <;> rw [h] <;> trivial

theorem Items.funcBody_none {G : Prec} {ts : List Tok} {is : List DomItem} (h : Items G ts is) (n : Nat) (r : List Tok) :
    pFuncBody G n (ts ++ .rbrace :: r) = some (none, ts ++ .rbrace :: r) := by
  rcases h.head r with ⟨k, us, h⟩ | h <;> rw [h] <;> rfl

theorem Items.parse {G : Prec} (hG : G.Ok) {ts : List Tok} {is : List DomItem} (h : Items G ts is) :
    ∃ N, ∀ n ≥ N, ∀ r, pItems G n (ts ++ .rbrace :: r) = some (is, .rbrace :: r) := by
  induction h with
  | nil =>
    refine ⟨1, fun n hn r => ?_⟩
    obtain ⟨m, rfl, hm⟩ := le_succ_exists hn
    rfl
  | func f t hp hs ih =>
    obtain ⟨N, ih⟩ := ih
    refine ⟨N + 1, fun n hn r => ?_⟩
    obtain ⟨m, rfl, hm⟩ := le_succ_exists hn
    simp only [List.cons_append, List.append_assoc, pItems]
    rw [hp.parse]
    simp only [Option.bind_eq_bind, Option.bind_some]
    rw [hs.funcBody_none]
    simp only [Option.bind_some]
    rw [ih m hm r]
    rfl
  | computable f t hp hs ih =>
    obtain ⟨N, ih⟩ := ih
    refine ⟨N + 1, fun n hn r => ?_⟩
    obtain ⟨m, rfl, hm⟩ := le_succ_exists hn
    simp only [List.cons_append, List.append_assoc, pItems]
    rw [hp.parse]
    simp only [Option.bind_eq_bind, Option.bind_some, pFuncBody]
    rw [ih m hm r]
    rfl
  | funcBody f t hp h hs ih =>
    obtain ⟨-, -, ⟨M, h⟩, -⟩ := h.parse hG
    obtain ⟨N, ih⟩ := ih
    refine ⟨max M N + 1, fun n hn r => ?_⟩
    obtain ⟨m, rfl, hm⟩ := le_succ_exists hn
    simp only [List.cons_append, List.append_assoc, pItems]
    rw [hp.parse]
    simp only [Option.bind_eq_bind, Option.bind_some, pFuncBody]
    rw [h m (by omega) _ (hs.stop _ r)]
    simp only [Option.bind_some, Option.pure_def]
    rw [ih m (by omega) r]
    rfl
  | ax x h hs ih =>
    obtain ⟨-, -, ⟨M, h⟩, -⟩ := h.parse hG
    obtain ⟨N, ih⟩ := ih
    refine ⟨max M N + 1, fun n hn r => ?_⟩
    obtain ⟨m, rfl, hm⟩ := le_succ_exists hn
    simp only [List.cons_append, List.append_assoc, pItems]
    rw [h m (by omega) _ (hs.stop _ r)]
    simp only [Option.bind_eq_bind, Option.bind_some]
    rw [ih m (by omega) r]
    rfl

/-- The rest of a procedure after `proc`. -/
def pProc (G : Prec) (n : Nat) (anno : Option Ident) (d : Dir) : List Tok → Option (RUnit × List Tok)
  | .id name :: .lpar :: ts => do
    let (ins, ts) ← pParams ts
    match ts with
    | .rpar :: .arrow :: .lpar :: ts => do
      let (outs, ts) ← pParams ts
      let ts ← expectRPar ts
      let (spec, ts) ← pSpecs G n ts
      let (body, ts) ← pBody G n ts
      return (.proc ⟨⟨name, d, ins.map param, outs, spec, body⟩, anno⟩, ts)
    | _ => none
  | _ => none

def pDe (G : Prec) (n : Nat) : List Tok → Option (RUnit × List Tok)
  | .atT :: .id x :: .kw (.proc d) :: ts => pProc G n (some x) d ts
  | .kw (.proc d) :: ts => pProc G n none d ts
  | .kw .domain :: .id name :: .lbrace :: ts => do
    let (is, ts) ← pItems G n ts
    let ts ← expectRBrace ts
    return (.domain name is, ts)
  | _ => none

def startsDecl : List Tok → Bool
  | .atT :: _ | .kw (.proc _) :: _ | .kw .domain :: _ => true
  | _ => false

theorem startsDecl_end {ts : List Tok} (h : startsDecl ts = true) (r : List Tok) : EndD (ts ++ r) := by
  unfold startsDecl at h
  split at h <;> trivial

theorem startsDecl_append {ts : List Tok} (h : startsDecl ts = true) (r : List Tok) : startsDecl (ts ++ r) = true := by
  unfold startsDecl at h
  split at h <;> first | rfl | cases h

theorem pProc_parse {G : Prec} {is os ss bs : List Tok} {ins outs : List Var} {spec : List RSpec} {body : Option (List RStmt)}
    (hG : G.Ok) (hi : Params is ins) (ho : Params os outs) (hs : Specs G ss spec) (hb : Body G bs body) (anno : Option Ident) (d : Dir)
    (name : Ident) : ∃ N, ∀ n ≥ N, ∀ r, EndD r →
      pProc G n anno d (.id name :: .lpar :: (is ++ .rpar :: .arrow :: .lpar :: (os ++ .rpar :: (ss ++ (bs ++ r))))) =
        some (.proc ⟨⟨name, d, ins.map param, outs, spec, body⟩, anno⟩, r) := by
  obtain ⟨N, hs⟩ := hs.parse hG
  obtain ⟨he, M, hb⟩ := hb.parse hG
  refine ⟨max N M, fun n hn r hr => ?_⟩
  rw [pProc, hi.parse]
  simp only [Option.bind_eq_bind, Option.bind_some]
  rw [ho.parse]
  simp only [Option.bind_some, expectRPar]
  rw [hs n (by omega) _ (he r hr)]
  simp only [Option.bind_some]
  rw [hb n (by omega) r hr]
  rfl

theorem De.parse {G : Prec} (hG : G.Ok) {ts : List Tok} {u : RUnit} (h : De G ts u) :
    startsDecl ts = true ∧ ∃ N, ∀ n ≥ N, ∀ r, EndD r → pDe G n (ts ++ r) = some (u, r) := by
  cases h with
  | @proc as is os ss bs anno ins outs spec body d name ha hi ho hs hb =>
    obtain ⟨N, h⟩ := pProc_parse hG hi ho hs hb anno d name
    cases ha with
    | absent =>
      refine ⟨rfl, N, fun n hn r hr => ?_⟩
      simp only [List.cons_append, List.append_assoc, List.nil_append, pDe]
      exact h n hn r hr
    | given x =>
      refine ⟨rfl, N, fun n hn r hr => ?_⟩
      simp only [List.cons_append, List.append_assoc, List.nil_append, pDe]
      exact h n hn r hr
  | domain name h =>
    obtain ⟨N, h⟩ := h.parse hG
    refine ⟨rfl, N, fun n hn r hr => ?_⟩
    simp only [List.cons_append, List.append_assoc, List.nil_append, pDe]
    rw [h n hn]
    rfl

def pDes (G : Prec) : Nat → List Tok → Option (List RUnit × List Tok)
  | 0, _ => none
  | n + 1, ts =>
    if startsDecl ts then do
      let (d, ts) ← pDe G n ts
      let (ds, ts) ← pDes G n ts
      return (d :: ds, ts)
    else some ([], ts)

theorem Des.head {G : Prec} (hG : G.Ok) {ts : List Tok} {us : List RUnit} (h : Des G ts us) : EndD ts := by
  cases h with
  | nil => trivial
  | cons h _ => exact startsDecl_end (h.parse hG).1 _

theorem Des.parse {G : Prec} (hG : G.Ok) {ts : List Tok} {us : List RUnit} (h : Des G ts us) :
    ∃ N, ∀ n ≥ N, pDes G n ts = some (us, []) := by
  induction h with
  | nil =>
    refine ⟨1, fun n hn => ?_⟩
    obtain ⟨m, rfl, hm⟩ := le_succ_exists hn
    rfl
  | cons h hs ih =>
    obtain ⟨hst, N, h⟩ := h.parse hG
    obtain ⟨M, ih⟩ := ih
    refine ⟨max N M + 1, fun n hn => ?_⟩
    obtain ⟨m, rfl, hm⟩ := le_succ_exists hn
    rw [pDes, startsDecl_append hst]
    simp only [if_true]
    rw [h m (by omega) _ (hs.head hG)]
    simp only [Option.bind_eq_bind, Option.bind_some]
    rw [ih m (by omega)]
    rfl

/-! ## Unambiguity -/

theorem Derives.unique {G : Prec} (hG : G.Ok) {ts : List Tok} {e e' : RExpr} (h : Derives G ts e) (h' : Derives G ts e') : e = e' := by
  obtain ⟨-, -, ⟨N, h⟩, -⟩ := h.parse hG
  obtain ⟨-, -, ⟨M, h'⟩, -⟩ := h'.parse hG
  have h := h (max N M) (by omega) [] trivial
  rw [h' (max N M) (by omega) [] trivial] at h
  simp_all

theorem Sts.unique {G : Prec} (hG : G.Ok) {ts : List Tok} {e e' : List RStmt} (h : Sts G ts e) (h' : Sts G ts e') : e = e' := by
  obtain ⟨-, N, h⟩ := h.parse hG
  obtain ⟨-, M, h'⟩ := h'.parse hG
  have h := h (max N M) (by omega) [] trivial
  rw [h' (max N M) (by omega) [] trivial] at h
  simp_all

theorem Des.unique {G : Prec} (hG : G.Ok) {ts : List Tok} {us us' : List RUnit} (h : Des G ts us) (h' : Des G ts us') : us = us' := by
  obtain ⟨N, h⟩ := h.parse hG
  obtain ⟨M, h'⟩ := h'.parse hG
  have h := h (max N M) (by omega)
  rw [h' (max N M) (by omega)] at h
  simp_all

/-- A file has at most one syntax tree. -/
theorem File.unique {G : Prec} (hG : G.Ok) {raw : Bool} {ts : List Tok} {us us' : List RUnit} (h : File G raw ts us) (h' : File G raw ts us') :
    us = us' := by
  cases h with
  | decls h =>
    cases h' with
    | decls h' => exact h.unique hG h'
  | raw h =>
    cases h' with
    | raw h' => rw [h.unique hG h']

end Parse
end Caesar
