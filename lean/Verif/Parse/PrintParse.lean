import Verif.Parse.Print

/-!
# Trees of the parser can be printed

Trees that come from the parser satisfy the conditions under which printing them and parsing the result gives the same tree, except for parentheses, if
they contain no `let`, no numbers with a decimal point, no calls as statements, and no functions in domains.
-/

namespace Caesar
namespace Parse

open Front

mutual

/-- The tree without parentheses. -/
def unparen : RExpr → RExpr
  | .var t x => .var t x
  | .call t f args => .call t f (unparenL args)
  | .ite t c a b => .ite t (unparen c) (unparen a) (unparen b)
  | .bin t o a b => .bin t o (unparen a) (unparen b)
  | .un _ .parens a => unparen a
  | .un t .not a => .un t .not (unparen a)
  | .un t .non a => .un t .non (unparen a)
  | .un t .embed a => .un t .embed (unparen a)
  | .un t .iverson a => .un t .iverson (unparen a)
  | .cast t a => .cast t (unparen a)
  | .quant t o vs trs a => .quant t o vs (unparenLL trs) (unparen a)
  | .subst t x v a => .subst t x (unparen v) (unparen a)
  | .lit t l => .lit t l

def unparenL : List RExpr → List RExpr
  | [] => []
  | e :: es => unparen e :: unparenL es

def unparenLL : List (List RExpr) → List (List RExpr)
  | [] => []
  | es :: ess => unparenL es :: unparenLL ess

end

mutual

/-- Printing and parsing changes parentheses only. -/
theorem unparen_rep : ∀ (e : RExpr), Bare e → unparen (rep e) = unparen e
  | .var t x, h => by
    obtain rfl : t = none := h
    rfl
  | .call t f args, h => by
    obtain ⟨rfl, h⟩ := h
    simp only [rep, unparen, unparenL_repL args h]
  | .ite t c a b, h => by
    obtain ⟨rfl, h1, h2, h3⟩ := h
    simp only [rep, unparen, unparen_rep c h1, unparen_rep a h2, unparen_rep b h3]
  | .bin t o a b, h => by
    obtain ⟨rfl, h1, h2⟩ := h
    simp only [rep, unparen, unparen_rep a h1, unparen_rep b h2]
  | .un t .not a, h => by
    obtain ⟨rfl, h⟩ := h
    simp only [rep, unparen, unparen_rep a h]
  | .un t .non a, h => by
    obtain ⟨rfl, h⟩ := h
    simp only [rep, unparen, unparen_rep a h]
  | .un t .embed a, h => by
    obtain ⟨rfl, h⟩ := h
    simp only [rep, unparen, unparen_rep a h]
  | .un t .iverson a, h => by
    obtain ⟨rfl, h⟩ := h
    simp only [rep, unparen, unparen_rep a h]
  | .un t .parens a, h => by
    obtain ⟨rfl, h⟩ := h
    simp only [rep, unparen, unparen_rep a h]
  | .cast _ _, h => h.elim
  | .quant t o vs trs a, h => by
    obtain ⟨rfl, -, h1, h2⟩ := h
    simp only [rep, unparen, unparenLL_repLL trs h1, unparen_rep a h2]
  | .subst t x v a, h => by
    obtain ⟨rfl, h1, h2⟩ := h
    simp only [rep, unparen, unparen_rep v h1, unparen_rep a h2]
  | .lit t l, h => by
    obtain rfl : t = none := h
    rfl

theorem unparenL_repL : ∀ (es : List RExpr), BareL es → unparenL (repL es) = unparenL es
  | [], _ => rfl
  | e :: es, h => by simp only [repL, unparenL, unparen_rep e h.1, unparenL_repL es h.2]

theorem unparenLL_repLL : ∀ (es : List (List RExpr)), BareLL es → unparenLL (repLL es) = unparenLL es
  | [], _ => rfl
  | e :: es, h => by simp only [repLL, unparenLL, unparenL_repL e h.1, unparenLL_repLL es h.2]

end

mutual

/-- Neither `let` nor numbers with a decimal point. -/
def Plain : RExpr → Prop
  | .var _ _ => True
  | .call _ _ args => PlainL args
  | .ite _ c a b => Plain c ∧ Plain a ∧ Plain b
  | .bin _ _ a b => Plain a ∧ Plain b
  | .un _ _ a => Plain a
  | .cast _ a => Plain a
  | .quant _ _ _ trs a => PlainLL trs ∧ Plain a
  | .subst _ _ _ _ => False
  | .lit _ l => isFrac l = false

def PlainL : List RExpr → Prop
  | [] => True
  | e :: es => Plain e ∧ PlainL es

def PlainLL : List (List RExpr) → Prop
  | [] => True
  | es :: ess => PlainL es ∧ PlainLL ess

end

theorem Vars.ne {ts : List Tok} {vs : List Var} (h : Vars ts vs) : vs ≠ [] := by cases h <;> simp

theorem Ex.ok {G : Prec} (hG : G.Ok) {k : Nat} {ts : List Tok} {e : RExpr} (h : Ex G k ts e) : Plain e → PrintOk e ∧ (k < G.top → isQuant e = false) := by
  refine Ex.rec (motive_1 := fun _ e _ => Plain e → PrintOk e ∧ isQuant e = false)
    (motive_2 := fun k _ e _ => Plain e → PrintOk e ∧ (k < G.top → isQuant e = false))
    (motive_3 := fun _ es _ => PlainL es → PrintOkL es) (motive_4 := fun _ es _ => PlainLL es → PrintOkLL es)
    ?_ ?_ ?_ ?_ ?_ ?_ ?_ ?_ ?_ ?_ ?_ ?_ ?_ ?_ ?_ ?_ ?_ ?_ ?_ ?_ ?_ h
  · exact fun _ _ _ _ _ hp => hp.elim
  · exact fun _ _ _ ihc iha ihb hp => ⟨⟨(ihc hp.1).1, (iha hp.2.1).1, (ihb hp.2.2).1⟩, rfl⟩
  · exact fun _ ih hp => ⟨(ih hp).1, rfl⟩
  · exact fun _ ih hp => ⟨(ih hp).1, rfl⟩
  · exact fun _ ih hp => ⟨(ih hp).1, rfl⟩
  · exact fun _ _ ih hp => ⟨ih hp, rfl⟩
  · exact fun _ ih hp => ⟨(ih hp).1, rfl⟩
  · exact fun _ ih hp => ⟨(ih hp).1, rfl⟩
  · exact fun _ hp => ⟨hp, rfl⟩
  · exact fun _ _ => ⟨trivial, rfl⟩
  · exact fun _ ih hp => ⟨(ih hp).1, fun _ => (ih hp).2⟩
  · exact fun hk _ ih hp => ⟨(ih hp).1, fun _ => (ih hp).2 hk⟩
  · intro k l r a b o hl _ _ _ ih ih' hp
    have := hG.hi o
    exact ⟨⟨(ih hp.1).1, (ih' hp.2).1, (ih hp.1).2 (by omega), (ih' hp.2).2 (by omega)⟩, fun _ => rfl⟩
  · intro k l r a b o hl _ _ _ ih ih' hp
    have := hG.hi o
    exact ⟨⟨(ih hp.1).1, (ih' hp.2).1, (ih hp.1).2 (by omega), (ih' hp.2).2 (by omega)⟩, fun _ => rfl⟩
  · intro k l r a b o hl _ _ _ ih ih' hp
    have := hG.hi o
    exact ⟨⟨(ih hp.1).1, (ih' hp.2).1, (ih hp.1).2 (by omega), (ih' hp.2).2 (by omega)⟩, fun _ => rfl⟩
  · intro vs as ts vars trs e o hv _ _ iha ih hp
    refine ⟨⟨by simpa using hv.ne, by simp, iha hp.1, (ih hp.2).1⟩, fun h => (lt_irrefl _ h).elim⟩
  · exact fun _ => trivial
  · exact fun _ ih hp => ⟨(ih hp.1).1, trivial⟩
  · exact fun _ _ ih ihs hp => ⟨(ih hp.1).1, ihs hp.2⟩
  · exact fun _ => trivial
  · exact fun _ hne _ ih ihs hp => ⟨hne, ih hp.1, ihs hp.2⟩

mutual

/-- No calls as statements. (Their results are dropped.) -/
def NoCalls : RStmt → Prop
  | .seq ss => NoCallsB ss
  | .assign xs _ => xs ≠ []
  | .demonic a b | .angelic a b | .additive a b | .ite _ a b => NoCallsB a ∧ NoCallsB b
  | .while _ a => NoCallsB a
  | .annot _ _ s => NoCalls s
  | _ => True

def NoCallsB : List RStmt → Prop
  | [] => True
  | s :: ss => NoCalls s ∧ NoCallsB ss

end

/-- No calls as statements, and no functions in domains. -/
def NoCallsU : RUnit → Prop
  | .proc p => ∀ B, p.proc.body = some B → NoCallsB B
  | .domain _ is => ∀ i ∈ is, ∃ x e, i = .ax x e
  | .raw ss => NoCallsB ss

theorem printOkL {es : List RExpr} (h : ∀ e ∈ es, PrintOk e) : PrintOkL es := by
  induction es with
  | nil => trivial
  | cons e es ih => exact ⟨h e (.head _), ih fun x hx => h x (.tail _ hx)⟩

theorem Ids.ne {ts : List Tok} {xs : List Ident} (h : Ids ts xs) : xs ≠ [] := by cases h <;> simp

theorem Sts.ok {G : Prec} {ts : List Tok} {ss : List RStmt} (h : Sts G ts ss) : NoCallsB ss → (∀ e ∈ exprsB ss, PrintOk e) → OkB ss := by
  refine Sts.rec (motive_1 := fun _ s _ => NoCalls s → (∀ e ∈ exprsS s, PrintOk e) → OkS s)
    (motive_2 := fun _ ss _ => NoCallsB ss → (∀ e ∈ exprsB ss, PrintOk e) → OkB ss)
    (motive_3 := fun _ ss _ => NoCallsB ss → (∀ e ∈ exprsB ss, PrintOk e) → OkB ss)
    ?_ ?_ ?_ ?_ ?_ ?_ ?_ ?_ ?_ ?_ ?_ ?_ ?_ ?_ ?_ ?_ ?_ ?_ h
  · exact fun _ ih hn he => ih hn he
  · exact fun v _ _ he a ha => he a (by cases ha; exact .head _)
  · exact fun v _ _ a ha => by cases ha
  · exact fun hx _ _ he => ⟨hx.ne, he _ (.head _)⟩
  · exact fun _ _ hn _ => (hn rfl).elim
  · exact fun d hx _ _ => hx.ne
  · intro k s ts e hk _ _ he
    cases hk <;> exact he _ (.head _)
  · exact fun _ _ _ => trivial
  · exact fun _ _ _ => trivial
  · intro t c ts us a b ht _ _ iha ihb hn he
    cases c <;> exact ⟨iha hn.1 fun e h => he e (List.mem_append_left _ h), ihb hn.2 fun e h => he e (List.mem_append_right _ h)⟩
  · exact fun _ _ _ iha ihb hn he => ⟨he _ (.head _), iha hn.1 fun e h => he e (.tail _ (List.mem_append_left _ h)),
      ihb hn.2 fun e h => he e (.tail _ (List.mem_append_right _ h))⟩
  · exact fun _ _ iha hn he => ⟨he _ (.head _), iha hn fun e h => he e (.tail _ h)⟩
  · exact fun _ _ _ ih hn he => ⟨printOkL fun e h => he e (List.mem_append_left _ h), ih hn fun e h => he e (List.mem_append_right _ h)⟩
  · exact fun _ _ _ => trivial
  · exact fun _ ih => ih
  · exact fun _ _ => trivial
  · exact fun _ _ ih ihs hn he => ⟨ih hn.1 fun e h => he e (List.mem_append_left _ h), ihs hn.2 fun e h => he e (List.mem_append_right _ h)⟩
  · exact fun _ _ ih ihs hn he => ⟨ih hn.1 fun e h => he e (List.mem_append_left _ h), ihs hn.2 fun e h => he e (List.mem_append_right _ h)⟩

theorem De.ok {G : Prec} {ts : List Tok} {u : RUnit} (h : De G ts u) (hn : NoCallsU u) (he : ∀ e ∈ exprsU u, PrintOk e) : OkU u := by
  cases h with
  | proc d name ha hi ho hs hb =>
    refine ⟨?_, fun s h => he _ (List.mem_append_left _ (List.mem_map_of_mem h)), fun B hB => ?_⟩
    · intro v hv
      obtain ⟨w, -, rfl⟩ := List.mem_map.1 hv
      rfl
    · cases hb with
      | absent => cases hB
      | given hb =>
        cases hB
        cases hb with
        | mk hb => exact hb.ok (hn _ rfl) fun e h => he e (List.mem_append_right _ h)
  | domain name h =>
    intro i hi
    obtain ⟨x, e, rfl⟩ := hn i hi
    exact ⟨x, e, rfl, he e (List.mem_flatMap.2 ⟨_, hi, .head _⟩)⟩

theorem Des.mem {G : Prec} {ts : List Tok} {us : List RUnit} (h : Des G ts us) : ∀ u ∈ us, ∃ ts, De G ts u := by
  induction h with
  | nil => exact nofun
  | cons h _ ih =>
    intro u hu
    rcases List.mem_cons.1 hu with rfl | hu
    · exact ⟨_, h⟩
    · exact ih u hu

/-- The expressions of a file come from the grammar. -/
theorem File.derives {raw : Bool} {ts : List Tok} {us : List RUnit} (h : File newG raw ts us) : ∀ e ∈ exprsF us, ∃ es, Derives newG es e := by
  obtain ⟨us', -, -, hb⟩ := h.old
  generalize exprsF us = l at hb
  generalize exprsF us' = l' at hb
  induction hb with
  | nil => exact nofun
  | cons h _ ih =>
    intro e he
    rcases List.mem_cons.1 he with rfl | he
    · obtain ⟨es, h, -⟩ := h
      exact ⟨es, h⟩
    · exact ih e he

/-! ## Maps -/

mutual

theorem mapS_comp (f g : RExpr → RExpr) : ∀ s, mapS f (mapS g s) = mapS (f ∘ g) s
  | .seq ss => by simp only [mapS, mapB_comp f g ss]
  | .var x t e => by simp only [mapS, Option.map_map]
  | .assign xs e => rfl
  | .assert d e => rfl
  | .assume d e => rfl
  | .compare d e => rfl
  | .tick e => rfl
  | .weigh e => rfl
  | .negate d => rfl
  | .validate d => rfl
  | .havoc d xs => rfl
  | .label l => rfl
  | .demonic a b => by simp only [mapS, mapB_comp f g a, mapB_comp f g b]
  | .angelic a b => by simp only [mapS, mapB_comp f g a, mapB_comp f g b]
  | .additive a b => by simp only [mapS, mapB_comp f g a, mapB_comp f g b]
  | .ite c a b => by simp only [mapS, mapB_comp f g a, mapB_comp f g b, Function.comp_apply]
  | .while c a => by simp only [mapS, mapB_comp f g a, Function.comp_apply]
  | .annot h as s => by simp only [mapS, mapS_comp f g s, List.map_map]

theorem mapB_comp (f g : RExpr → RExpr) : ∀ ss, mapB f (mapB g ss) = mapB (f ∘ g) ss
  | [] => rfl
  | s :: ss => by simp only [mapB, mapS_comp f g s, mapB_comp f g ss]

end

mutual

theorem mapS_congr {f g : RExpr → RExpr} : ∀ s, (∀ e ∈ exprsS s, f e = g e) → mapS f s = mapS g s
  | .seq ss, h => by simp only [mapS, mapB_congr ss h]
  | .var x t e, h => by
    cases e with
    | none => rfl
    | some e => simp only [mapS, Option.map_some, h e (.head _)]
  | .assign xs e, h => by simp only [mapS, h e (.head _)]
  | .assert d e, h => by simp only [mapS, h e (.head _)]
  | .assume d e, h => by simp only [mapS, h e (.head _)]
  | .compare d e, h => by simp only [mapS, h e (.head _)]
  | .tick e, h => by simp only [mapS, h e (.head _)]
  | .weigh e, h => by simp only [mapS, h e (.head _)]
  | .negate d, _ => rfl
  | .validate d, _ => rfl
  | .havoc d xs, _ => rfl
  | .label l, _ => rfl
  | .demonic a b, h => by
    simp only [mapS, mapB_congr a fun e he => h e (List.mem_append_left _ he), mapB_congr b fun e he => h e (List.mem_append_right _ he)]
  | .angelic a b, h => by
    simp only [mapS, mapB_congr a fun e he => h e (List.mem_append_left _ he), mapB_congr b fun e he => h e (List.mem_append_right _ he)]
  | .additive a b, h => by
    simp only [mapS, mapB_congr a fun e he => h e (List.mem_append_left _ he), mapB_congr b fun e he => h e (List.mem_append_right _ he)]
  | .ite c a b, h => by
    simp only [mapS, h c (.head _), mapB_congr a fun e he => h e (.tail _ (List.mem_append_left _ he)),
      mapB_congr b fun e he => h e (.tail _ (List.mem_append_right _ he))]
  | .while c a, h => by simp only [mapS, h c (.head _), mapB_congr a fun e he => h e (.tail _ he)]
  | .annot k as s, h => by
    simp only [mapS, mapS_congr s fun e he => h e (List.mem_append_right _ he),
      List.map_congr_left (fun e he => h e (List.mem_append_left _ he) : ∀ e ∈ as, f e = g e)]

theorem mapB_congr {f g : RExpr → RExpr} : ∀ ss, (∀ e ∈ exprsB ss, f e = g e) → mapB f ss = mapB g ss
  | [], _ => rfl
  | s :: ss, h => by
    simp only [mapB, mapS_congr s fun e he => h e (List.mem_append_left _ he), mapB_congr ss fun e he => h e (List.mem_append_right _ he)]

end

theorem mapU_rep {u : RUnit} (h : ∀ e ∈ exprsU u, Bare e) : mapU unparen (mapU rep u) = mapU unparen u := by
  have h : ∀ e ∈ exprsU u, (unparen ∘ rep) e = unparen e := fun e he => unparen_rep e (h e he)
  cases u with
  | proc p =>
    obtain ⟨⟨name, dir, ins, outs, spec, body⟩, c⟩ := p
    have h1 : (spec.map (mapSpec rep)).map (mapSpec unparen) = spec.map (mapSpec unparen) := by
      rw [List.map_map]
      refine List.map_congr_left fun s hs => ?_
      have := h (RSpec.ex s) (List.mem_append_left _ (List.mem_map_of_mem hs))
      cases s with
      | requires e => exact congrArg RSpec.requires this
      | ensures e => exact congrArg RSpec.ensures this
    have h2 : (body.map (mapB rep)).map (mapB unparen) = body.map (mapB unparen) := by
      cases body with
      | none => rfl
      | some B =>
        simp only [Option.map_some, mapB_comp]
        rw [mapB_congr B fun e he => h e (List.mem_append_right _ he)]
    simp only [mapU, h1, h2]
  | domain x is =>
    have : (is.map (mapI rep)).map (mapI unparen) = is.map (mapI unparen) := by
      rw [List.map_map]
      refine List.map_congr_left fun i hi => ?_
      have hm : ∀ e ∈ exprsI i, (unparen ∘ rep) e = unparen e := fun e he => h e (List.mem_flatMap.2 ⟨i, hi, he⟩)
      cases i with
      | ax y e => exact congrArg (DomItem.ax y) (hm e (.head _))
      | func f vs t b =>
        cases b with
        | none => rfl
        | some e => exact congrArg (fun e => DomItem.func f vs t (some e)) (hm e (.head _))
    simp only [mapU, this]
  | raw ss =>
    simp only [mapU, mapB_comp]
    rw [mapB_congr ss h]

end Parse
end Caesar
