import Verif.Parse.DescentStmt
import Verif.Parse.Reassoc

/-!
# The old grammar accepts what the new one accepts

So the comparison with the old parser never is left out because the old parser fails, and both trees have the same shape except for the expressions.
-/

namespace Caesar
namespace Parse

open Front

/-! ## Chains of atoms and operators -/

/-- Atoms with operators of level at most `k` between them. -/
inductive Flat (G : Prec) (k : Nat) : List Tok → Prop where
  | one {ts e} (h : Atom G ts e) : Flat G k ts
  | cons {ts us e o} (h : Atom G ts e) (ho : G.lev o ≤ k) (hr : Flat G k us) : Flat G k (ts ++ .op o :: us)

theorem Flat.append {G : Prec} {k : Nat} {l r : List Tok} {o : RBin} (hl : Flat G k l) (ho : G.lev o ≤ k) (hr : Flat G k r) :
    Flat G k (l ++ .op o :: r) := by
  induction hl with
  | one h => exact .cons h ho hr
  | cons h ho' _ ih =>
    rw [List.append_assoc]
    exact .cons h ho' ih

/-- Chains of level `k` with operators of level `k + 1` between them. -/
inductive Segs (G : Prec) (k : Nat) : List Tok → Prop where
  | one {ts} (h : Flat G k ts) : Segs G k ts
  | cons {ts us o} (h : Flat G k ts) (ho : G.lev o = k + 1) (hr : Segs G k us) : Segs G k (ts ++ .op o :: us)

theorem Flat.segs {G : Prec} {k : Nat} {ts : List Tok} (h : Flat G (k + 1) ts) : Segs G k ts := by
  induction h with
  | one h => exact .one (.one h)
  | @cons ts us e o h ho _ ih =>
    by_cases hk : G.lev o = k + 1
    · exact .cons (.one h) hk ih
    · have hk : G.lev o ≤ k := by omega
      cases ih with
      | one h' => exact .one (.cons h hk h')
      | cons h' ho' hr' =>
        have := Segs.cons (Flat.cons h hk h') ho' hr'
        rwa [List.append_assoc] at this

theorem Segs.left {G : Prec} {k : Nat} (hs : G.side (k + 1) = .left) (ih : ∀ {ts}, Flat G k ts → ∃ e, Ex G k ts e) {r : List Tok}
    (h : Segs G k r) : ∀ {l a o}, Ex G (k + 1) l a → G.lev o = k + 1 → ∃ e, Ex G (k + 1) (l ++ .op o :: r) e := by
  induction h with
  | one h =>
    intro l a o ha ho
    obtain ⟨b, hb⟩ := ih h
    exact ⟨_, .left o ho hs ha hb⟩
  | @cons ts us o' h ho' _ ih' =>
    intro l a o ha ho
    obtain ⟨b, hb⟩ := ih h
    have := ih' (.left o ho hs ha hb) ho'
    rwa [List.append_assoc] at this

/-- With no level that is not associative, every chain has a tree. -/
theorem Flat.tree {G : Prec} (hG : G.Ok) (hside : ∀ k, k < G.top → 1 ≤ k → G.side k ≠ .none) :
    ∀ {k}, k < G.top → ∀ {ts}, Flat G k ts → ∃ e, Ex G k ts e := by
  intro k
  induction k with
  | zero =>
    intro _ ts h
    cases h with
    | one h => exact ⟨_, .atom h⟩
    | @cons _ _ _ o _ ho _ =>
      have := hG.lo o
      omega
  | succ k ih =>
    intro hk ts h
    have ih := @ih (by omega)
    have hseg := h.segs
    cases hs : G.side (k + 1) with
    | none => exact (hside _ hk (by omega) hs).elim
    | left =>
      cases hseg with
      | one h =>
        obtain ⟨e, he⟩ := ih h
        exact ⟨e, .up (by omega) he⟩
      | cons h' ho hr =>
        obtain ⟨e, he⟩ := ih h'
        exact hr.left hs ih (.up (by omega) he) ho
    | right =>
      clear h
      induction hseg with
      | one h =>
        obtain ⟨e, he⟩ := ih h
        exact ⟨e, .up (by omega) he⟩
      | @cons ts us o h ho _ ih' =>
        obtain ⟨a, ha⟩ := ih h
        obtain ⟨b, hb⟩ := ih'
        exact ⟨_, .right o ho hs ha hb⟩

theorem oldG_side : ∀ k, k < oldG.top → 1 ≤ k → oldG.side k ≠ .none := by
  intro k hk h1
  have : k = 1 ∨ k = 2 ∨ k = 3 ∨ k = 4 ∨ k = 5 ∨ k = 6 := by
    have : oldG.top = 7 := rfl
    omega
  rcases this with h | h | h | h | h | h <;> subst h <;> decide

theorem Flat.old {ts : List Tok} (h : Flat oldG 6 ts) : ∃ e, Derives oldG ts e := by
  obtain ⟨e, he⟩ := h.tree oldG_ok oldG_side (by decide)
  exact ⟨e, .up (k := 6) (by decide) he⟩

/-! ## Expressions -/

/-- The trees that both grammars have for some tokens. -/
def Both (e e' : RExpr) : Prop := ∃ ts, Derives newG ts e ∧ Derives oldG ts e'

theorem oldLev (o : RBin) : oldG.lev o ≤ 6 := by cases o <;> decide

/-- What is shown of expressions of the new grammar. -/
def OldEx (k : Nat) (ts : List Tok) : Prop := (k < newG.top → Flat oldG 6 ts) ∧ ∃ e', Derives oldG ts e'

def OldArgs (ts : List Tok) (es : List RExpr) : Prop := ∃ es', Args oldG ts es' ∧ List.Forall₂ Both es es'

theorem OldEx.bin {l r : List Tok} {k j i : Nat} (o : RBin) (hl : OldEx k l) (hk : k < newG.top) (hr : OldEx j r) (hj : j < newG.top) :
    OldEx i (l ++ .op o :: r) := by
  have := (hl.1 hk).append (oldLev o) (hr.1 hj)
  exact ⟨fun _ => this, this.old⟩

theorem newLev {o : RBin} {k : Nat} (h : newG.lev o = k + 1) : k + 1 < newG.top := by
  rw [← h]
  cases o <;> decide

theorem Ex.old {k : Nat} {ts : List Tok} {e : RExpr} (h : Ex newG k ts e) : OldEx k ts := by
  refine Ex.rec (motive_1 := fun ts _ _ => ∃ e', Atom oldG ts e') (motive_2 := fun k ts _ _ => OldEx k ts)
    (motive_3 := fun ts es _ => OldArgs ts es) (motive_4 := fun ts _ _ => ∃ trs', Anns oldG ts trs')
    ?_ ?_ ?_ ?_ ?_ ?_ ?_ ?_ ?_ ?_ ?_ ?_ ?_ ?_ ?_ ?_ ?_ ?_ ?_ ?_ ?_ h
  · rintro ts us v e x hv he ⟨-, v', hv'⟩ ⟨-, e', he'⟩
    exact ⟨_, .subst x hv' he'⟩
  · rintro ts us ws c a b hc ha hb ⟨-, _, hc'⟩ ⟨-, _, ha'⟩ ⟨-, _, hb'⟩
    exact ⟨_, .ite hc' ha' hb'⟩
  · rintro ts a h ⟨_, h'⟩
    exact ⟨_, .not h'⟩
  · rintro ts a h ⟨_, h'⟩
    exact ⟨_, .non h'⟩
  · rintro ts a h ⟨_, h'⟩
    exact ⟨_, .embed h'⟩
  · rintro ts as f h ⟨_, h', -⟩
    exact ⟨_, .call f h'⟩
  · rintro ts a h ⟨-, _, h'⟩
    exact ⟨_, .iverson h'⟩
  · rintro ts a h ⟨-, _, h'⟩
    exact ⟨_, .parens h'⟩
  · exact fun l => ⟨_, .lit l⟩
  · exact fun x => ⟨_, .var x⟩
  · rintro ts e h ⟨_, h'⟩
    exact ⟨fun _ => .one h', (Flat.one h').old⟩
  · rintro k ts e hk h ih
    exact ⟨fun _ => ih.1 hk, ih.2⟩
  · rintro k l r a b o hl hs ha hb iha ihb
    exact .bin o iha (newLev hl) ihb (by have := newLev hl; omega)
  · rintro k l r a b o hl hs ha hb iha ihb
    exact .bin o iha (by have := newLev hl; omega) ihb (newLev hl)
  · rintro k l r a b o hl hs ha hb iha ihb
    exact .bin o iha (by have := newLev hl; omega) ihb (by have := newLev hl; omega)
  · rintro vs as ts vars trs e o hv ha h ⟨_, ha'⟩ ⟨-, _, h'⟩
    exact ⟨fun hh => absurd hh (by decide), _, .quant o hv ha' h'⟩
  · exact ⟨_, .nil, .nil⟩
  · rintro ts e h ⟨-, _, h'⟩
    exact ⟨_, .one h', .cons ⟨_, h, h'⟩ .nil⟩
  · rintro ts us e es h hs ⟨-, _, h'⟩ ⟨_, hs', hf⟩
    exact ⟨_, .cons h' hs', .cons ⟨_, h, h'⟩ hf⟩
  · exact ⟨_, .empty⟩
  · rintro ts us es trs h hne hs ⟨es', h', hf⟩ ⟨_, hs'⟩
    refine ⟨_, .more h' ?_ hs'⟩
    rintro rfl
    cases hf
    exact hne rfl

theorem Ex.raise {G : Prec} {ts : List Tok} {e : RExpr} (h : Ex G 0 ts e) : ∀ k, k ≤ G.top → Ex G k ts e
  | 0, _ => h
  | k + 1, hk => .up (by omega) (Ex.raise h k (by omega))

theorem Derives.old {ts : List Tok} {e : RExpr} (h : Derives newG ts e) : ∃ e', Derives oldG ts e' ∧ Both e e' := by
  obtain ⟨e', h'⟩ := (Ex.old h).2
  exact ⟨e', h', ts, h, h'⟩

theorem Args.old {ts : List Tok} {es : List RExpr} (h : Args newG ts es) : ∃ es', Args oldG ts es' ∧ List.Forall₂ Both es es' := by
  cases h with
  | nil => exact ⟨_, .nil, .nil⟩
  | one h =>
    obtain ⟨e', h', hb⟩ := Derives.old h
    exact ⟨_, .one h', .cons hb .nil⟩
  | cons h hs =>
    obtain ⟨e', h', hb⟩ := Derives.old h
    obtain ⟨es', hs', hbs⟩ := Args.old hs
    exact ⟨_, .cons h' hs', .cons hb hbs⟩

/-! ## Statements and declarations -/

/-- An expression that stands for any expression. -/
def hole : RExpr := .lit none (.bool true)

mutual

/-- The statement with all expressions replaced. -/
def skelS : RStmt → RStmt
  | .seq ss => .seq (skelB ss)
  | .var x t e => .var x t (e.map fun _ => hole)
  | .assign xs _ => .assign xs hole
  | .assert d _ => .assert d hole
  | .assume d _ => .assume d hole
  | .compare d _ => .compare d hole
  | .tick _ => .tick hole
  | .weigh _ => .weigh hole
  | .negate d => .negate d
  | .validate d => .validate d
  | .havoc d xs => .havoc d xs
  | .label l => .label l
  | .demonic a b => .demonic (skelB a) (skelB b)
  | .angelic a b => .angelic (skelB a) (skelB b)
  | .additive a b => .additive (skelB a) (skelB b)
  | .ite _ a b => .ite hole (skelB a) (skelB b)
  | .while _ a => .while hole (skelB a)
  | .annot f as s => .annot f (as.map fun _ => hole) (skelS s)

def skelB : List RStmt → List RStmt
  | [] => []
  | s :: ss => skelS s :: skelB ss

end

def skelSpec : RSpec → RSpec
  | .requires _ => .requires hole
  | .ensures _ => .ensures hole

def skelI : DomItem → DomItem
  | .func f vs t b => .func f vs t (b.map fun _ => hole)
  | .ax x _ => .ax x hole

/-- The unit with all expressions replaced. -/
def skelU : RUnit → RUnit
  | .proc p => .proc { p with proc := { p.proc with spec := p.proc.spec.map skelSpec, body := p.proc.body.map skelB } }
  | .domain x is => .domain x (is.map skelI)
  | .raw ss => .raw (skelB ss)

theorem Forall₂.append {α β : Type} {R : α → β → Prop} {a c : List α} {b d : List β} (h : List.Forall₂ R a b) (h' : List.Forall₂ R c d) :
    List.Forall₂ R (a ++ c) (b ++ d) := by
  induction h with
  | nil => exact h'
  | cons h _ ih => exact .cons h ih

theorem Forall₂.holes {as bs : List RExpr} (h : List.Forall₂ Both as bs) : as.map (fun _ => hole) = bs.map (fun _ => hole) := by
  induction h with
  | nil => rfl
  | cons _ _ ih => simp [ih]

theorem Inputs.old {ts : List Tok} {es : List RExpr} (h : Inputs newG ts es) : ∃ es', Inputs oldG ts es' ∧ List.Forall₂ Both es es' := by
  cases h with
  | absent => exact ⟨_, .absent, .nil⟩
  | given h =>
    obtain ⟨es', h', hb⟩ := h.old
    exact ⟨_, .given h', hb⟩

def OldSt (ts : List Tok) (s : RStmt) : Prop := ∃ s', St oldG ts s' ∧ skelS s = skelS s' ∧ List.Forall₂ Both (exprsS s) (exprsS s')

def OldBl (ts : List Tok) (s : List RStmt) : Prop := ∃ s', Bl oldG ts s' ∧ skelB s = skelB s' ∧ List.Forall₂ Both (exprsB s) (exprsB s')

def OldSts (ts : List Tok) (s : List RStmt) : Prop := ∃ s', Sts oldG ts s' ∧ skelB s = skelB s' ∧ List.Forall₂ Both (exprsB s) (exprsB s')

theorem ExprKw.skel {k : Kw} {s : RExpr → RStmt} (h : ExprKw k s) (e : RExpr) : skelS (s e) = s hole ∧ exprsS (s e) = [e] := by
  cases h <;> exact ⟨by simp only [skelS], by simp only [exprsS]⟩

theorem Choice.skel (c : Choice) (a b : List RStmt) : skelS (c.stmt a b) = c.stmt (skelB a) (skelB b) ∧ exprsS (c.stmt a b) = exprsB a ++ exprsB b := by
  cases c <;> exact ⟨by simp only [Choice.stmt, skelS], by simp only [Choice.stmt, exprsS]⟩

theorem Sts.old {ts : List Tok} {ss : List RStmt} (h : Sts newG ts ss) : OldSts ts ss := by
  refine Sts.rec (motive_1 := fun ts s _ => OldSt ts s) (motive_2 := fun ts s _ => OldBl ts s) (motive_3 := fun ts s _ => OldSts ts s)
    ?_ ?_ ?_ ?_ ?_ ?_ ?_ ?_ ?_ ?_ ?_ ?_ ?_ ?_ ?_ ?_ ?_ ?_ h
  · rintro ts ss _ ⟨s', h', hk, hf⟩
    exact ⟨_, .seq h', by simp only [skelS, hk], by simpa only [exprsS] using hf⟩
  · intro ts e v h
    obtain ⟨e', h', hb⟩ := Derives.old h
    exact ⟨_, .varInit v h', by simp [skelS], by simpa [exprsS] using hb⟩
  · exact fun v => ⟨_, .var v, rfl, .nil⟩
  · intro ts us xs e hx h
    obtain ⟨e', h', hb⟩ := Derives.old h
    exact ⟨_, .assign hx h', by simp only [skelS], by simpa [exprsS] using hb⟩
  · intro ts as f h
    obtain ⟨as', h', hb⟩ := h.old
    refine ⟨_, .call f h', by simp only [skelS], ?_⟩
    have h1 : Derives newG (.id f :: .lpar :: (ts ++ [.rpar])) (.call none f as) := Ex.raise (.atom (.call f h)) _ le_rfl
    have h2 : Derives oldG (.id f :: .lpar :: (ts ++ [.rpar])) (.call none f as') := Ex.raise (.atom (.call f h')) _ le_rfl
    simp only [exprsS]
    exact .cons ⟨_, h1, h2⟩ .nil
  · exact fun d h => ⟨_, .havoc d h, rfl, .nil⟩
  · intro k s ts e hk h
    obtain ⟨e', h', hb⟩ := Derives.old h
    refine ⟨_, .expr hk h', by rw [(hk.skel e).1, (hk.skel e').1], ?_⟩
    rw [(hk.skel e).2, (hk.skel e').2]
    exact .cons hb .nil
  · exact fun d => ⟨_, .negate d, rfl, .nil⟩
  · exact fun d => ⟨_, .validate d, rfl, .nil⟩
  · rintro t c ts us a b ht ha hb ⟨a', ha', hka, hfa⟩ ⟨b', hb', hkb, hfb⟩
    refine ⟨_, .choice ht ha' hb', by rw [(c.skel a b).1, (c.skel a' b').1, hka, hkb], ?_⟩
    rw [(c.skel a b).2, (c.skel a' b').2]
    exact Forall₂.append hfa hfb
  · rintro cs ts us c a b hc ha hb ⟨a', ha', hka, hfa⟩ ⟨b', hb', hkb, hfb⟩
    obtain ⟨c', hc', hbc⟩ := Derives.old hc
    refine ⟨_, .ite hc' ha' hb', by simp only [skelS, hka, hkb], ?_⟩
    simp only [exprsS]
    exact .cons hbc (Forall₂.append hfa hfb)
  · rintro cs ts c a hc ha ⟨a', ha', hka, hfa⟩
    obtain ⟨c', hc', hbc⟩ := Derives.old hc
    refine ⟨_, .while hc' ha', by simp only [skelS, hka], ?_⟩
    simp only [exprsS]
    exact .cons hbc hfa
  · rintro is ts as s f hi h ⟨s', h', hk, hf⟩
    obtain ⟨as', hi', hb⟩ := hi.old
    refine ⟨_, .annot f hi' h', by simp only [skelS, hk, Forall₂.holes hb], ?_⟩
    simp only [exprsS]
    exact Forall₂.append hb hf
  · exact fun l => ⟨_, .label l, rfl, .nil⟩
  · rintro ts ss _ ⟨ss', h', hk, hf⟩
    exact ⟨_, .mk h', hk, hf⟩
  · exact ⟨_, .nil, rfl, .nil⟩
  · rintro ts us s ss _ _ ⟨s', h', hk, hf⟩ ⟨ss', hs', hks, hfs⟩
    refine ⟨_, .cons h' hs', by simp only [skelB, hk, hks], ?_⟩
    simp only [exprsB]
    exact Forall₂.append hf hfs
  · rintro ts us s ss _ _ ⟨s', h', hk, hf⟩ ⟨ss', hs', hks, hfs⟩
    refine ⟨_, .semi h' hs', by simp only [skelB, hk, hks], ?_⟩
    simp only [exprsB]
    exact Forall₂.append hf hfs

theorem Bl.old {ts : List Tok} {ss : List RStmt} (h : Bl newG ts ss) : OldBl ts ss := by
  cases h with
  | mk h =>
    obtain ⟨ss', h', hk, hf⟩ := h.old
    exact ⟨_, .mk h', hk, hf⟩

theorem Specs.old {ts : List Tok} {ss : List RSpec} (h : Specs newG ts ss) :
    ∃ ss', Specs oldG ts ss' ∧ ss.map skelSpec = ss'.map skelSpec ∧ List.Forall₂ Both (ss.map RSpec.ex) (ss'.map RSpec.ex) := by
  induction h with
  | nil => exact ⟨_, .nil, rfl, .nil⟩
  | pre h _ ih =>
    obtain ⟨e', h', hb⟩ := Derives.old h
    obtain ⟨ss', hs', hk, hf⟩ := ih
    exact ⟨_, .pre h' hs', by simp only [List.map_cons, skelSpec, hk], .cons hb hf⟩
  | post h _ ih =>
    obtain ⟨e', h', hb⟩ := Derives.old h
    obtain ⟨ss', hs', hk, hf⟩ := ih
    exact ⟨_, .post h' hs', by simp only [List.map_cons, skelSpec, hk], .cons hb hf⟩

theorem Items.old {ts : List Tok} {is : List DomItem} (h : Items newG ts is) :
    ∃ is', Items oldG ts is' ∧ is.map skelI = is'.map skelI ∧ List.Forall₂ Both (is.flatMap exprsI) (is'.flatMap exprsI) := by
  induction h with
  | nil => exact ⟨_, .nil, rfl, .nil⟩
  | func f t hp _ ih =>
    obtain ⟨is', hs', hk, hf⟩ := ih
    exact ⟨_, .func f t hp hs', by simp only [List.map_cons, hk], by simpa [exprsI] using hf⟩
  | computable f t hp _ ih =>
    obtain ⟨is', hs', hk, hf⟩ := ih
    exact ⟨_, .computable f t hp hs', by simp only [List.map_cons, hk], by simpa [exprsI] using hf⟩
  | funcBody f t hp h _ ih =>
    obtain ⟨e', h', hb⟩ := Derives.old h
    obtain ⟨is', hs', hk, hf⟩ := ih
    exact ⟨_, .funcBody f t hp h' hs', by simp only [List.map_cons, hk, skelI, Option.map_some], .cons hb hf⟩
  | ax x h _ ih =>
    obtain ⟨e', h', hb⟩ := Derives.old h
    obtain ⟨is', hs', hk, hf⟩ := ih
    exact ⟨_, .ax x h' hs', by simp only [List.map_cons, hk, skelI], .cons hb hf⟩

theorem Body.old {ts : List Tok} {b : Option (List RStmt)} (h : Body newG ts b) :
    ∃ b', Body oldG ts b' ∧ b.map skelB = b'.map skelB ∧ List.Forall₂ Both (exprsB (b.getD [])) (exprsB (b'.getD [])) := by
  cases h with
  | absent => exact ⟨_, .absent, rfl, .nil⟩
  | given h =>
    obtain ⟨b', h', hk, hf⟩ := h.old
    exact ⟨_, .given h', by simp [hk], hf⟩

theorem De.old {ts : List Tok} {u : RUnit} (h : De newG ts u) :
    ∃ u', De oldG ts u' ∧ skelU u = skelU u' ∧ List.Forall₂ Both (exprsU u) (exprsU u') := by
  cases h with
  | proc d name ha hi ho hs hb =>
    obtain ⟨ss', hs', hks, hfs⟩ := hs.old
    obtain ⟨b', hb', hkb, hfb⟩ := hb.old
    exact ⟨_, .proc d name ha hi ho hs' hb', by simp only [skelU, hks, hkb], Forall₂.append hfs hfb⟩
  | domain name h =>
    obtain ⟨is', h', hk, hf⟩ := h.old
    exact ⟨_, .domain name h', by simp only [skelU, hk], hf⟩

theorem Des.old {ts : List Tok} {us : List RUnit} (h : Des newG ts us) :
    ∃ us', Des oldG ts us' ∧ us.map skelU = us'.map skelU ∧ List.Forall₂ Both (exprsF us) (exprsF us') := by
  induction h with
  | nil => exact ⟨_, .nil, rfl, .nil⟩
  | cons h _ ih =>
    obtain ⟨u', h', hk, hf⟩ := h.old
    obtain ⟨us', hs', hks, hfs⟩ := ih
    exact ⟨_, .cons h' hs', by simp only [List.map_cons, hk, hks], Forall₂.append hf hfs⟩

theorem File.old {raw : Bool} {ts : List Tok} {us : List RUnit} (h : File newG raw ts us) :
    ∃ us', File oldG raw ts us' ∧ us.map skelU = us'.map skelU ∧ List.Forall₂ Both (exprsF us) (exprsF us') := by
  cases h with
  | decls h =>
    obtain ⟨us', h', hk, hf⟩ := h.old
    exact ⟨_, .decls h', hk, hf⟩
  | raw h =>
    obtain ⟨ss', h', hk, hf⟩ := h.old
    exact ⟨_, .raw h', by simp only [List.map_cons, skelU, hk, List.map_nil], by simpa [exprsF, exprsU] using hf⟩

/-! ## Identifiers, literals and annotations of derived trees -/

/-- What a token adds to `contents`. -/
def Tok.content : Tok → List Content
  | .id x => [.id x]
  | .lit l => [.lit l]
  | .decl v => [.decl v]
  | _ => []

theorem Vars.content {ts : List Tok} {vs : List Var} (h : Vars ts vs) : ts.flatMap Tok.content = vs.map Content.decl := by
  induction h with
  | one => rfl
  | cons v _ ih => simp [Tok.content, ih]

theorem Ex.content {G : Prec} {k : Nat} {ts : List Tok} {e : RExpr} (h : Ex G k ts e) : ts.flatMap Tok.content = contents e ∧ Bare e := by
  refine Ex.rec (motive_1 := fun ts e _ => ts.flatMap Tok.content = contents e ∧ Bare e)
    (motive_2 := fun _ ts e _ => ts.flatMap Tok.content = contents e ∧ Bare e)
    (motive_3 := fun ts es _ => ts.flatMap Tok.content = contentsL es ∧ BareL es)
    (motive_4 := fun ts trs _ => ts.flatMap Tok.content = contentsLL trs ∧ BareLL trs)
    ?_ ?_ ?_ ?_ ?_ ?_ ?_ ?_ ?_ ?_ ?_ ?_ ?_ ?_ ?_ ?_ ?_ ?_ ?_ ?_ ?_ h
  · rintro ts us v e x hv he ⟨h1, h2⟩ ⟨h3, h4⟩
    exact ⟨by simp [Tok.content, contents, h1, h3], rfl, h2, h4⟩
  · rintro ts us ws c a b hc ha hb ⟨h1, h2⟩ ⟨h3, h4⟩ ⟨h5, h6⟩
    exact ⟨by simp [Tok.content, contents, h1, h3, h5], rfl, h2, h4, h6⟩
  · rintro ts a h ⟨h1, h2⟩; exact ⟨by simp [Tok.content, contents, h1], rfl, h2⟩
  · rintro ts a h ⟨h1, h2⟩; exact ⟨by simp [Tok.content, contents, h1], rfl, h2⟩
  · rintro ts a h ⟨h1, h2⟩; exact ⟨by simp [Tok.content, contents, h1], rfl, h2⟩
  · rintro ts as f h ⟨h1, h2⟩; exact ⟨by simp [Tok.content, contents, h1], rfl, h2⟩
  · rintro ts a h ⟨h1, h2⟩; exact ⟨by simp [Tok.content, contents, h1], rfl, h2⟩
  · rintro ts a h ⟨h1, h2⟩; exact ⟨by simp [Tok.content, contents, h1], rfl, h2⟩
  · exact fun l => ⟨by simp [Tok.content, contents], rfl⟩
  · exact fun x => ⟨by simp [Tok.content, contents], rfl⟩
  · exact fun _ ih => ih
  · exact fun _ _ ih => ih
  · rintro k l r a b o hl hs ha hb ⟨h1, h2⟩ ⟨h3, h4⟩
    exact ⟨by simp [Tok.content, contents, h1, h3], rfl, h2, h4⟩
  · rintro k l r a b o hl hs ha hb ⟨h1, h2⟩ ⟨h3, h4⟩
    exact ⟨by simp [Tok.content, contents, h1, h3], rfl, h2, h4⟩
  · rintro k l r a b o hl hs ha hb ⟨h1, h2⟩ ⟨h3, h4⟩
    exact ⟨by simp [Tok.content, contents, h1, h3], rfl, h2, h4⟩
  · rintro vs as ts vars trs e o hv ha h ⟨h1, h2⟩ ⟨h3, h4⟩
    refine ⟨by simp [Tok.content, contents, h1, h3, hv.content], rfl, ?_, h2, h4⟩
    intro v hv
    obtain ⟨_, _, rfl⟩ := List.mem_map.1 hv
    rfl
  · exact ⟨rfl, trivial⟩
  · rintro ts e h ⟨h1, h2⟩; exact ⟨by simp [contentsL, h1], h2, trivial⟩
  · rintro ts us e es h hs ⟨h1, h2⟩ ⟨h3, h4⟩; exact ⟨by simp [Tok.content, contentsL, h1, h3], h2, h4⟩
  · exact ⟨rfl, trivial⟩
  · rintro ts us es trs h hne hs ⟨h1, h2⟩ ⟨h3, h4⟩; exact ⟨by simp [Tok.content, contentsLL, h1, h3], h2, h4⟩

/-- The check for one expression is exact. -/
theorem Both.fp_iff {e e' : RExpr} (h : Both e e') : fp e = fp e' ↔ Reassoc e e' := by
  obtain ⟨ts, h, h'⟩ := h
  exact fp_eq_iff h.content.2 h'.content.2 (h.content.1.symm.trans h'.content.1)

end Parse
end Caesar
