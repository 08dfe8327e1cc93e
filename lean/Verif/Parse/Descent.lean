import Verif.Parse.Grammar

/-!
# The grammars are unambiguous: expressions

A parser by recursive descent, with fuel, which finds the tree of every derivation (`Ex.parse`). It is only a means of proof: as it is a function,
there is at most one tree for given tokens.
-/

namespace Caesar
namespace Parse

open Front

/-- Variables of quantifiers. -/
def pVars : List Tok → Option (List Var × List Tok)
  | .decl v :: .comma :: ts =>
    match pVars ts with
    | some (vs, r) => some (v :: vs, r)
    | none => none
  | .decl v :: ts => some ([v], ts)
  | _ => none

/-- The next operator, if it has level `k`. -/
def opAt (G : Prec) (k : Nat) : List Tok → Option (RBin × List Tok)
  | .op o :: ts => if G.lev o = k then some (o, ts) else none
  | _ => none

/-- A given token. -/
def expectRPar : List Tok → Option (List Tok)
  | .rpar :: ts => some ts
  | _ => none

def expectRBrk : List Tok → Option (List Tok)
  | .rbrk :: ts => some ts
  | _ => none

def expectComma : List Tok → Option (List Tok)
  | .comma :: ts => some ts
  | _ => none

def expectDot : List Tok → Option (List Tok)
  | .dot :: ts => some ts
  | _ => none

def isRPar : List Tok → Bool
  | .rpar :: _ => true
  | _ => false

def getQ : List Tok → Option (QOp × List Tok)
  | .q o :: ts => some (o, ts)
  | _ => none

mutual

def pAtom (G : Prec) : Nat → List Tok → Option (RExpr × List Tok)
  | 0, _ => none
  | n + 1, ts =>
    match ts with
    | .letT :: .lpar :: .id x :: .comma :: ts => do
      let (v, ts) ← pEx G n G.top ts
      let ts ← expectComma ts
      let (e, ts) ← pEx G n G.top ts
      let ts ← expectRPar ts
      return (.subst none x v e, ts)
    | .iteT :: .lpar :: ts => do
      let (c, ts) ← pEx G n G.top ts
      let ts ← expectComma ts
      let (a, ts) ← pEx G n G.top ts
      let ts ← expectComma ts
      let (b, ts) ← pEx G n G.top ts
      let ts ← expectRPar ts
      return (.ite none c a b, ts)
    | .bang :: ts => do
      let (a, ts) ← pAtom G n ts
      return (.un none .not a, ts)
    | .tilde :: ts => do
      let (a, ts) ← pAtom G n ts
      return (.un none .non a, ts)
    | .quest :: ts => do
      let (a, ts) ← pAtom G n ts
      return (.un none .embed a, ts)
    | .id f :: .lpar :: ts => do
      let (as, ts) ← pArgs G n ts
      let ts ← expectRPar ts
      return (.call none f as, ts)
    | .lbrk :: ts => do
      let (a, ts) ← pEx G n G.top ts
      let ts ← expectRBrk ts
      return (.un none .iverson a, ts)
    | .lpar :: ts => do
      let (a, ts) ← pEx G n G.top ts
      let ts ← expectRPar ts
      return (.un none .parens a, ts)
    | .lit l :: ts => some (.lit none l, ts)
    | .id x :: ts => some (.var none x, ts)
    | _ => none

def pEx (G : Prec) : Nat → Nat → List Tok → Option (RExpr × List Tok)
  | 0, _, _ => none
  | n + 1, 0, ts => pAtom G n ts
  | n + 1, k + 1, ts =>
    match (if k + 1 = G.top then getQ ts else none) with
    | some (o, ts) => do
      let (vs, ts) ← pVars ts
      let (trs, ts) ← pAnns G n ts
      let ts ← expectDot ts
      let (e, ts) ← pEx G n G.top ts
      return (.quant none o (vs.map fun v => ⟨true, v⟩) trs e, ts)
    | none => do
      let (a, ts) ← pEx G n k ts
      match G.side (k + 1) with
      | .left => pLoop G n k a ts
      | .right =>
        match opAt G (k + 1) ts with
        | some (o, ts) => do
          let (b, ts) ← pEx G n (k + 1) ts
          return (.bin none o a b, ts)
        | none => some (a, ts)
      | .none =>
        match opAt G (k + 1) ts with
        | some (o, ts) => do
          let (b, ts) ← pEx G n k ts
          return (.bin none o a b, ts)
        | none => some (a, ts)

def pLoop (G : Prec) : Nat → Nat → RExpr → List Tok → Option (RExpr × List Tok)
  | 0, _, _, _ => none
  | n + 1, k, a, ts =>
    match opAt G (k + 1) ts with
    | some (o, ts) => do
      let (b, ts) ← pEx G n k ts
      pLoop G n k (.bin none o a b) ts
    | none => some (a, ts)

def pArgs (G : Prec) : Nat → List Tok → Option (List RExpr × List Tok)
  | 0, _ => none
  | n + 1, ts =>
    if isRPar ts then some ([], ts)
    else do
      let (e, ts) ← pEx G n G.top ts
      match expectComma ts with
      | some ts => do
        let (es, ts) ← pArgs G n ts
        return (e :: es, ts)
      | none => some ([e], ts)

def pAnns (G : Prec) : Nat → List Tok → Option (List (List RExpr) × List Tok)
  | 0, _ => none
  | n + 1, ts =>
    match ts with
    | .trigger :: .lpar :: ts => do
      let (es, ts) ← pArgs G n ts
      let ts ← expectRPar ts
      let (trs, ts) ← pAnns G n ts
      return (es :: trs, ts)
    | ts => some ([], ts)

end

/-! ## Completeness -/

/-- What the proof needs to know about a table. -/
structure Prec.Ok (G : Prec) : Prop where
  lo : ∀ o, 1 ≤ G.lev o
  hi : ∀ o, G.lev o < G.top
  side : G.side G.top = .none

theorem newG_ok : newG.Ok := ⟨fun o => by cases o <;> decide, fun o => by cases o <;> decide, rfl⟩
theorem oldG_ok : oldG.Ok := ⟨fun o => by cases o <;> decide, fun o => by cases o <;> decide, rfl⟩

/-- The next token neither continues an expression of level `k` nor turns a name into a call. -/
def Stop (G : Prec) (k : Nat) : List Tok → Prop
  | .op o :: _ => k < G.lev o
  | .lpar :: _ => False
  | _ => True

theorem Stop.mono {G : Prec} {k j : Nat} {r : List Tok} (h : Stop G k r) (hj : j ≤ k) : Stop G j r := by
  unfold Stop at *
  split <;> simp_all
  omega

/-- Tokens that begin an atomic expression. -/
def Tok.starts : Tok → Bool
  | .id _ | .lit _ | .bang | .tilde | .quest | .lpar | .lbrk | .letT | .iteT => true
  | _ => false

/-- The first token of an expression. -/
def Starts (G : Prec) (k : Nat) : List Tok → Prop
  | t :: _ => t.starts = true ∨ (k = G.top ∧ ∃ o, t = .q o)
  | [] => False

theorem Starts.append {G : Prec} {k : Nat} {ts r : List Tok} (h : Starts G k ts) : Starts G k (ts ++ r) := by
  cases ts with
  | nil => exact h.elim
  | cons t ts => exact h

theorem Starts.getQ {G : Prec} {k : Nat} {ts : List Tok} (h : Starts G k ts) (hk : k ≠ G.top) : getQ ts = none := by
  cases ts with
  | nil => rfl
  | cons t ts =>
    rcases h with h | ⟨h, -⟩
    · cases t <;> first | rfl | cases h
    · exact (hk h).elim

theorem Starts.rpar {G : Prec} {k : Nat} {ts : List Tok} (h : Starts G k ts) : isRPar ts = false := by
  cases ts with
  | nil => rfl
  | cons t ts =>
    rcases h with h | ⟨-, o, rfl⟩
    · cases t <;> first | rfl | cases h
    · rfl

theorem Starts.up {G : Prec} {k j : Nat} {ts : List Tok} (h : Starts G k ts) (hk : k ≠ G.top) : Starts G j ts := by
  cases ts with
  | nil => exact h
  | cons t ts =>
    rcases h with h | ⟨h, -⟩
    · exact .inl h
    · exact (hk h).elim

theorem Vars.parse {ts : List Tok} {vs : List Var} (h : Vars ts vs) {r : List Tok} (hr : ∀ r', r ≠ .comma :: r') :
    pVars (ts ++ r) = some (vs, r) := by
  induction h with
  | one v =>
    cases r with
    | nil => rfl
    | cons t r => cases t <;> first | rfl | exact (hr _ rfl).elim
  | cons v h ih => simp [pVars, ih]

theorem Anns.head {G : Prec} {ts : List Tok} {trs : List (List RExpr)} (h : Anns G ts trs) (r r' : List Tok) :
    ts ++ .dot :: r ≠ .comma :: r' := by
  cases h <;> simp

theorem opAt_stop {G : Prec} {k : Nat} {r : List Tok} (h : Stop G k r) : opAt G k r = none := by
  unfold opAt
  split
  · rw [if_neg]
    have : k < G.lev _ := h
    omega
  · rfl

theorem stop_comma {G : Prec} {k : Nat} {r : List Tok} : Stop G k (.comma :: r) := trivial
theorem stop_rpar {G : Prec} {k : Nat} {r : List Tok} : Stop G k (.rpar :: r) := trivial
theorem stop_rbrk {G : Prec} {k : Nat} {r : List Tok} : Stop G k (.rbrk :: r) := trivial

/-- What completeness says about atoms. -/
def AtomP (G : Prec) (ts : List Tok) (e : RExpr) : Prop :=
  (∃ t ts', ts = t :: ts' ∧ t.starts = true) ∧ ∃ N, ∀ n ≥ N, ∀ r, Stop G 0 r → pAtom G n (ts ++ r) = some (e, r)

/-- What completeness says about expressions. The last part is for the left operands of operators that are associative to the left. -/
def ExP (G : Prec) (k : Nat) (ts : List Tok) (e : RExpr) : Prop :=
  k ≤ G.top ∧ Starts G k ts ∧ (∃ N, ∀ n ≥ N, ∀ r, Stop G k r → pEx G n k (ts ++ r) = some (e, r)) ∧
    ∀ j, k = j + 1 → G.side k = .left →
      ∃ N d, ∀ n ≥ N, ∀ r, Stop G j r → pEx G (n + d) k (ts ++ r) = pLoop G n j e r

def ArgsP (G : Prec) (ts : List Tok) (es : List RExpr) : Prop :=
  ∃ N, ∀ n ≥ N, ∀ r, pArgs G n (ts ++ .rpar :: r) = some (es, .rpar :: r)

def AnnsP (G : Prec) (ts : List Tok) (trs : List (List RExpr)) : Prop :=
  ∃ N, ∀ n ≥ N, ∀ r, pAnns G n (ts ++ .dot :: r) = some (trs, .dot :: r)

theorem pLoop_stop {G : Prec} {k : Nat} {a : RExpr} {r : List Tok} (h : Stop G (k + 1) r) {n : Nat} (hn : 1 ≤ n) :
    pLoop G n k a r = some (a, r) := by
  obtain ⟨n, rfl⟩ : ∃ m, n = m + 1 := ⟨n - 1, by omega⟩
  rw [pLoop, opAt_stop h]

theorem le_succ_exists {N n : Nat} (h : N + 1 ≤ n) : ∃ m, n = m + 1 ∧ N ≤ m := ⟨n - 1, by omega, by omega⟩

section
variable {G : Prec}

theorem atomP_un {ts : List Tok} {a : RExpr} {t : Tok} {op : RUn} (h : AtomP G ts a) (ht : t.starts = true)
    (he : ∀ n ts, pAtom G (n + 1) (t :: ts) = (pAtom G n ts).bind fun p => some (.un none op p.1, p.2)) :
    AtomP G (t :: ts) (.un none op a) := by
  obtain ⟨-, N, h⟩ := h
  refine ⟨⟨t, ts, rfl, ht⟩, N + 1, fun n hn r hr => ?_⟩
  obtain ⟨m, rfl, hm⟩ := le_succ_exists hn
  rw [List.cons_append, he, h m hm r hr]
  rfl

theorem exP_bin_start {l r : List Tok} {a : RExpr} {k j : Nat} {o : RBin} (h : ExP G k l a) (hk : k ≠ G.top) :
    Starts G j (l ++ .op o :: r) := (h.2.1.up hk).append

theorem stop_op {o : RBin} {k : Nat} {r : List Tok} (h : k < G.lev o) : Stop G k (.op o :: r) := h

theorem opAt_op {o : RBin} {k : Nat} {r : List Tok} (h : G.lev o = k) : opAt G k (.op o :: r) = some (o, r) := by
  simp [opAt, h]

/-- Parsing on a level above, when there is no quantifier. -/
theorem pEx_succ {n k : Nat} {ts : List Tok} (h : k + 1 = G.top → getQ ts = none) :
    pEx G (n + 1) (k + 1) ts = (pEx G n k ts).bind fun p =>
      match G.side (k + 1) with
      | .left => pLoop G n k p.1 p.2
      | .right =>
        match opAt G (k + 1) p.2 with
        | some (o, ts) => (pEx G n (k + 1) ts).bind fun q => some (.bin none o p.1 q.1, q.2)
        | none => some (p.1, p.2)
      | .none =>
        match opAt G (k + 1) p.2 with
        | some (o, ts) => (pEx G n k ts).bind fun q => some (.bin none o p.1 q.1, q.2)
        | none => some (p.1, p.2) := by
  rw [pEx]
  have : (if k + 1 = G.top then getQ ts else none) = none := by
    split
    · exact h ‹_›
    · rfl
  rw [this]
  rfl

end

/-- Completeness of the parser. -/
theorem Ex.parse {G : Prec} (hG : G.Ok) {k : Nat} {ts : List Tok} {e : RExpr} (h : Ex G k ts e) : ExP G k ts e := by
  induction h using Ex.rec (motive_1 := fun ts e _ => AtomP G ts e) (motive_3 := fun ts es _ => ArgsP G ts es)
    (motive_4 := fun ts trs _ => AnnsP G ts trs) with
  | subst x hv he ihv ihe =>
    obtain ⟨-, -, ⟨N, hv⟩, -⟩ := ihv
    obtain ⟨-, -, ⟨M, he⟩, -⟩ := ihe
    refine ⟨⟨_, _, rfl, rfl⟩, max N M + 1, fun n hn r hr => ?_⟩
    obtain ⟨m, rfl, hm⟩ := le_succ_exists hn
    simp only [List.cons_append, List.append_assoc, List.nil_append, pAtom]
    rw [hv m (by omega) _ stop_comma]
    simp only [Option.bind_eq_bind, Option.bind_some, expectComma]
    rw [he m (by omega) _ stop_rpar]
    rfl
  | ite hc ha hb ihc iha ihb =>
    obtain ⟨-, -, ⟨N, hc⟩, -⟩ := ihc
    obtain ⟨-, -, ⟨M, ha⟩, -⟩ := iha
    obtain ⟨-, -, ⟨K, hb⟩, -⟩ := ihb
    refine ⟨⟨_, _, rfl, rfl⟩, max N (max M K) + 1, fun n hn r hr => ?_⟩
    obtain ⟨m, rfl, hm⟩ := le_succ_exists hn
    simp only [List.cons_append, List.append_assoc, List.nil_append, pAtom]
    rw [hc m (by omega) _ stop_comma]
    simp only [Option.bind_eq_bind, Option.bind_some, expectComma]
    rw [ha m (by omega) _ stop_comma]
    simp only [Option.bind_some]
    rw [hb m (by omega) _ stop_rpar]
    rfl
  | not h ih => exact atomP_un ih rfl fun _ _ => rfl
  | non h ih => exact atomP_un ih rfl fun _ _ => rfl
  | embed h ih => exact atomP_un ih rfl fun _ _ => rfl
  | call f h ih =>
    obtain ⟨N, h⟩ := ih
    refine ⟨⟨_, _, rfl, rfl⟩, N + 1, fun n hn r hr => ?_⟩
    obtain ⟨m, rfl, hm⟩ := le_succ_exists hn
    simp only [List.cons_append, List.append_assoc, List.nil_append, pAtom]
    rw [h m hm r]
    rfl
  | iverson h ih =>
    obtain ⟨-, -, ⟨N, h⟩, -⟩ := ih
    refine ⟨⟨_, _, rfl, rfl⟩, N + 1, fun n hn r hr => ?_⟩
    obtain ⟨m, rfl, hm⟩ := le_succ_exists hn
    simp only [List.cons_append, List.append_assoc, List.nil_append, pAtom]
    rw [h m hm _ stop_rbrk]
    rfl
  | parens h ih =>
    obtain ⟨-, -, ⟨N, h⟩, -⟩ := ih
    refine ⟨⟨_, _, rfl, rfl⟩, N + 1, fun n hn r hr => ?_⟩
    obtain ⟨m, rfl, hm⟩ := le_succ_exists hn
    simp only [List.cons_append, List.append_assoc, List.nil_append, pAtom]
    rw [h m hm _ stop_rpar]
    rfl
  | lit l =>
    refine ⟨⟨_, _, rfl, rfl⟩, 1, fun n hn r hr => ?_⟩
    obtain ⟨m, rfl, hm⟩ := le_succ_exists hn
    rfl
  | var x =>
    refine ⟨⟨_, _, rfl, rfl⟩, 1, fun n hn r hr => ?_⟩
    obtain ⟨m, rfl, hm⟩ := le_succ_exists hn
    cases r with
    | nil => rfl
    | cons t r => cases t <;> first | rfl | exact hr.elim
  | atom h ih =>
    obtain ⟨⟨t, ts, rfl, ht⟩, N, h⟩ := ih
    refine ⟨Nat.zero_le _, .inl ht, ⟨N + 1, fun n hn r hr => ?_⟩, fun j hj => by omega⟩
    obtain ⟨m, rfl, hm⟩ := le_succ_exists hn
    exact h m hm r hr
  | @up k ts e hk h ih =>
    obtain ⟨-, hs, ⟨N, h⟩, -⟩ := ih
    have hq : ∀ r, k + 1 = G.top → getQ (ts ++ r) = none := fun r _ => hs.append.getQ (by omega)
    refine ⟨hk, hs.up (by omega), ⟨N + 2, fun n hn r hr => ?_⟩, ?_⟩
    · obtain ⟨m, rfl, hm⟩ := le_succ_exists hn
      rw [pEx_succ (hq r), h m (by omega) r (hr.mono (by omega))]
      simp only [Option.bind_some, opAt_stop hr, pLoop_stop hr (show 1 ≤ m by omega)]
      cases G.side (k + 1) <;> rfl
    · intro j hj hl
      obtain rfl : k = j := by omega
      refine ⟨N, 1, fun n hn r hr => ?_⟩
      rw [pEx_succ (hq r), h n hn r hr, hl]
      rfl
  | @left k l r a b o hl hs ha hb iha ihb =>
    have htop : k + 1 ≠ G.top := by have := hG.hi o; omega
    have hst : Starts G (k + 1) (l ++ .op o :: r) := exP_bin_start iha htop
    obtain ⟨-, -, -, iha⟩ := iha
    obtain ⟨N, d, iha⟩ := iha k rfl hs
    obtain ⟨-, -, ⟨M, ihb⟩, -⟩ := ihb
    have key : ∀ n ≥ max N M, ∀ rest, Stop G k rest →
        pEx G (n + (1 + d)) (k + 1) ((l ++ .op o :: r) ++ rest) = pLoop G n k (.bin none o a b) rest := by
      intro n hn rest hr
      rw [List.append_assoc, List.cons_append, ← Nat.add_assoc, iha (n + 1) (by omega) _ (stop_op (by omega)), pLoop, opAt_op hl]
      simp only [Option.bind_eq_bind]
      rw [ihb n (by omega) rest hr]
      rfl
    refine ⟨by have := hG.hi o; omega, hst, ⟨max N M + 2 + d, fun n hn rest hr => ?_⟩, fun j hj _ => ?_⟩
    · obtain ⟨m, rfl⟩ : ∃ m, n = m + (1 + d) := ⟨n - (1 + d), by omega⟩
      rw [key m (by omega) rest (hr.mono (by omega)), pLoop_stop hr (by omega)]
    · obtain rfl : k = j := by omega
      exact ⟨_, _, key⟩
  | @right k l r a b o hl hs ha hb iha ihb =>
    have htop : k + 1 ≠ G.top := by have := hG.hi o; omega
    have hk : k ≠ G.top := by have := hG.hi o; omega
    have hst : Starts G (k + 1) (l ++ .op o :: r) := exP_bin_start iha hk
    obtain ⟨-, -, ⟨N, iha⟩, -⟩ := iha
    obtain ⟨-, -, ⟨M, ihb⟩, -⟩ := ihb
    refine ⟨by have := hG.hi o; omega, hst, ⟨max N M + 1, fun n hn rest hr => ?_⟩, fun j hj h => by rw [hs] at h; cases h⟩
    obtain ⟨m, rfl, hm⟩ := le_succ_exists hn
    rw [pEx_succ (fun h => (htop h).elim), List.append_assoc, List.cons_append, iha m (by omega) _ (stop_op (by omega)), hs]
    simp only [Option.bind_some, opAt_op hl]
    rw [ihb m (by omega) rest hr]
    rfl
  | @flat k l r a b o hl hs ha hb iha ihb =>
    have htop : k + 1 ≠ G.top := by have := hG.hi o; omega
    have hk : k ≠ G.top := by have := hG.hi o; omega
    have hst : Starts G (k + 1) (l ++ .op o :: r) := exP_bin_start iha hk
    obtain ⟨-, -, ⟨N, iha⟩, -⟩ := iha
    obtain ⟨-, -, ⟨M, ihb⟩, -⟩ := ihb
    refine ⟨by have := hG.hi o; omega, hst, ⟨max N M + 1, fun n hn rest hr => ?_⟩, fun j hj h => by rw [hs] at h; cases h⟩
    obtain ⟨m, rfl, hm⟩ := le_succ_exists hn
    rw [pEx_succ (fun h => (htop h).elim), List.append_assoc, List.cons_append, iha m (by omega) _ (stop_op (by omega)), hs]
    simp only [Option.bind_some, opAt_op hl]
    rw [ihb m (by omega) rest (hr.mono (by omega))]
    rfl
  | quant o hv ha h iha ih =>
    obtain ⟨N, iha⟩ := iha
    obtain ⟨-, -, ⟨M, ih⟩, -⟩ := ih
    refine ⟨le_rfl, .inr ⟨rfl, o, rfl⟩, ⟨max N M + 1, fun n hn r hr => ?_⟩, fun j _ hs => by rw [hG.side] at hs; cases hs⟩
    obtain ⟨m, rfl, hm⟩ := le_succ_exists hn
    obtain ⟨t, ht⟩ : ∃ t, G.top = t + 1 := ⟨G.top - 1, by have := hG.hi .add; omega⟩
    have ih := ih m (by omega) r hr
    have iha := iha m (by omega)
    simp only [List.cons_append, List.append_assoc] at iha ⊢
    rw [ht, pEx, if_pos ht.symm]
    simp only [getQ, Option.bind_eq_bind]
    rw [hv.parse (ha.head _), Option.bind_some, iha]
    simp only [Option.bind_some, expectDot]
    rw [ih]
    rfl
  | nil =>
    refine ⟨1, fun n hn r => ?_⟩
    obtain ⟨m, rfl, hm⟩ := le_succ_exists hn
    rfl
  | one h ih =>
    obtain ⟨-, hs, ⟨N, h⟩, -⟩ := ih
    refine ⟨N + 1, fun n hn r => ?_⟩
    obtain ⟨m, rfl, hm⟩ := le_succ_exists hn
    rw [pArgs, hs.append.rpar, h m hm _ stop_rpar]
    rfl
  | cons h hs ih ihs =>
    obtain ⟨-, hst, ⟨N, h⟩, -⟩ := ih
    obtain ⟨M, hs⟩ := ihs
    refine ⟨max N M + 1, fun n hn r => ?_⟩
    obtain ⟨m, rfl, hm⟩ := le_succ_exists hn
    rw [List.append_assoc, pArgs, hst.append.rpar, List.cons_append, h m (by omega) _ stop_comma]
    simp only [Bool.false_eq_true, if_false, Option.bind_eq_bind, Option.bind_some, expectComma]
    rw [hs m (by omega)]
    rfl
  | empty =>
    refine ⟨1, fun n hn r => ?_⟩
    obtain ⟨m, rfl, hm⟩ := le_succ_exists hn
    rfl
  | more h hne hs ih ihs =>
    obtain ⟨N, h⟩ := ih
    obtain ⟨M, hs⟩ := ihs
    refine ⟨max N M + 1, fun n hn r => ?_⟩
    obtain ⟨m, rfl, hm⟩ := le_succ_exists hn
    simp only [List.cons_append, List.append_assoc, pAnns]
    rw [h m (by omega)]
    simp only [Option.bind_eq_bind, Option.bind_some, expectRPar]
    rw [hs m (by omega)]
    rfl

end Parse
end Caesar
