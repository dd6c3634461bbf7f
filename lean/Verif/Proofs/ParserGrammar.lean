import Verif.Proofs.ParserCorrect
import Verif.Proofs.ParserRead
import Verif.Proofs.Text
import Verif.Proofs.Generators
import Verif.Spec.Grammar
/-! Whatever the parser accepts can be read with the grammar. -/

namespace Verif
open Spec (Notes Gap Mark MethodAt BoundAt BoundsAt WeightAt TextAt ParamAt RawParam Readable Place)

/-- The result and the rest of the text satisfy `Q`. -/
def P.Sat {α : Type} (Q : α → Str → Prop) (x : P α) : Prop := ∀ a r, x = .ok a r → Q a r

namespace P.Sat
variable {α β : Type} {Q : α → Str → Prop} {R : β → Str → Prop}

theorem ok {a : α} {r : Str} (h : Q a r) : P.Sat Q (.ok a r) := by
  rintro _ _ ⟨rfl, rfl⟩; exact h

theorem fail : P.Sat Q .fail := by rintro _ _ ⟨⟩
theorem err {e : Err} : P.Sat Q (.err e) := by rintro _ _ ⟨⟩
theorem fuel : P.Sat Q .fuel := by rintro _ _ ⟨⟩

theorem bind {x : P α} {f : α → Str → P β} (h : P.Sat Q x) (hf : ∀ a r, Q a r → P.Sat R (f a r)) :
    P.Sat R (x.bind f) := by
  cases x with
  | ok a r => exact hf a r (h a r rfl)
  | fail => exact fail
  | err e => exact err
  | fuel => exact fuel

theorem or {x y : P α} (h : P.Sat Q x) (h' : P.Sat Q y) : P.Sat Q (x.or y) := by
  cases x with
  | fail => exact h'
  | ok a r => exact h
  | err e => exact h
  | fuel => exact h

theorem opt {x : P α} {s : Str} {T : Option α → Str → Prop} (h : P.Sat Q x) (hs : T none s)
    (hT : ∀ a r, Q a r → T (some a) r) : P.Sat T (x.opt s) := by
  cases x with
  | ok a r => exact ok (hT a r (h a r rfl))
  | fail => exact ok hs
  | err e => exact err
  | fuel => exact fuel

theorem weaken {x : P α} {Q' : α → Str → Prop} (h : P.Sat Q x) (hq : ∀ a r, Q a r → Q' a r) : P.Sat Q' x :=
  fun a r e => hq a r (h a r e)

end P.Sat

theorem mem_takeWhile_of {p : Char → Bool} {c : Char} : ∀ {s : Str}, c ∈ s.takeWhile p → p c = true
  | [], h => by simp at h
  | d :: s, h => by
    rw [List.takeWhile_cons] at h
    split at h
    · rcases List.mem_cons.1 h with rfl | h
      · assumption
      · exact mem_takeWhile_of h
    · simp at h

theorem takeWhile_drop (p : Char → Bool) : ∀ s : Str, s = s.takeWhile p ++ s.drop (s.takeWhile p).length
  | [] => rfl
  | d :: s => by
    rw [List.takeWhile_cons]
    split
    · rw [List.cons_append, List.length_cons, List.drop_succ_cons, ← takeWhile_drop p s]
    · rfl

/-! ## Comments and white space -/

theorem Spec.Notes.trans {s t u : Str} (h : Notes s t) (h' : Notes t u) : Notes s u := by
  induction h with
  | none => exact h'
  | line h1 h2 h3 h4 _ ih => exact .line h1 h2 h3 h4 (ih h')
  | block h1 h2 _ ih => exact .block h1 h2 (ih h')

theorem Spec.Gap.trans {s t u : Str} (h : Gap s t) (h' : Gap t u) : Gap s u := by
  induction h with
  | none => exact h'
  | blank h1 _ ih => exact .blank h1 (ih h')
  | notes h1 _ ih => exact .notes h1 (ih h')

theorem Spec.Gap.blanks {r : Str} : ∀ {w : Str}, w.all Spec.blank = true → Gap (w ++ r) r
  | [], _ => .none
  | c :: w, h => by
    simp only [List.all_cons, Bool.and_eq_true] at h
    exact .blank h.1 (Gap.blanks h.2)

theorem Spec.Notes.gap {s t : Str} (h : Notes s t) : Gap s t := .notes h .none

theorem closeComment_split : ∀ (s r : Str), closeComment s = some r →
    ∃ b, s = b ++ (c!"*/" ++ r) ∧ hasSub c!"*/" (b ++ c!"*") = false
  | [], _, h => by simp [closeComment] at h
  | c :: cs, r, h => by
    unfold closeComment at h
    split at h
    · cases h
      exact ⟨[], rfl, by decide⟩
    · rename_i hne
      obtain ⟨b, rfl, hb⟩ := closeComment_split cs r h
      refine ⟨c :: b, rfl, ?_⟩
      rw [List.cons_append, hasSub, hb, Bool.or_false, Bool.eq_false_iff]
      intro hp
      rw [List.isPrefixOf_iff_prefix] at hp
      obtain ⟨v, hv⟩ := hp
      simp only [List.cons_append, List.nil_append, List.cons.injEq] at hv
      obtain ⟨rfl, hv⟩ := hv
      cases b with
      | nil => simp at hv
      | cons d b =>
        simp only [List.cons_append, List.cons.injEq] at hv
        obtain ⟨rfl, _⟩ := hv
        exact hne _ rfl rfl

theorem comment_notes {s r : Str} (h : comment s = some r) : ∀ {t}, Notes r t → Notes s t := by
  intro t ht
  have hw : (s.takeWhile isWs).all Spec.blank = true := by
    rw [blank_eq, List.all_eq_true]
    intro x hx
    exact (mem_takeWhile_of hx)
  have hs : s = s.takeWhile isWs ++ s.dropWhile isWs := (List.takeWhile_append_dropWhile ..).symm
  have hline : ∀ u : Str, '\n' ∉ u.takeWhile (· ≠ '\n') ∧
      (u.dropWhile (· ≠ '\n') = [] ∨ ∃ r', u.dropWhile (· ≠ '\n') = '\n' :: r') := by
    intro u
    constructor
    · intro hm
      have := mem_takeWhile_of hm
      simp at this
    · cases hd : u.dropWhile (· ≠ '\n') with
      | nil => exact .inl rfl
      | cons c r' =>
        have := List.head?_dropWhile_not (· ≠ '\n') u
        rw [hd] at this
        simp at this
        subst this
        exact .inr ⟨r', rfl⟩
  have happ : ∀ u : Str, u = u.takeWhile (· ≠ '\n') ++ u.dropWhile (· ≠ '\n') := fun u =>
    (List.takeWhile_append_dropWhile ..).symm
  unfold comment at h
  split at h
  · rename_i u e
    cases h
    rw [hs, e]
    have := Notes.line (m := c!"#") hw (.inl rfl) (hline u).1 (hline u).2 ht
    rwa [← happ u] at this
  · rename_i u e
    cases h
    rw [hs, e]
    have := Notes.line (m := c!"//") hw (.inr rfl) (hline u).1 (hline u).2 ht
    rwa [← happ u] at this
  · rename_i u e
    obtain ⟨b, rfl, hb⟩ := closeComment_split _ _ h
    rw [hs, e]
    exact Notes.block hw hb ht
  · cases h

theorem skipN_notes : ∀ (n : Nat) (s : Str), Notes s (skipN n s)
  | 0, _ => .none
  | n + 1, s => by
    unfold skipN
    split
    · exact .none
    · rename_i r h
      exact comment_notes h (skipN_notes n r)

theorem skip_notes (s : Str) : Notes s (skip s) := skipN_notes _ _

theorem optWs_reads (s : Str) : Gap s (optWs s) := by
  refine .notes (skip_notes s) ?_
  have hs : skip s = (skip s).takeWhile isWs ++ (skip s).dropWhile isWs := (List.takeWhile_append_dropWhile ..).symm
  unfold optWs
  have hb : ((skip s).takeWhile isWs).all Spec.blank = true := by
    rw [blank_eq, List.all_eq_true]
    intro x hx
    exact (mem_takeWhile_of hx)
  have := Gap.blanks (r := (skip s).dropWhile isWs) hb
  rwa [← hs] at this

/-! ## Tokens -/

theorem Spec.Mark.after {d s t r : Str} (h : Notes s t) (h' : Mark d t r) : Mark d s r := h.trans h'

theorem Spec.BoundAt.after {b : Spec.Bound} {s t r : Str} (h : Notes s t) (h' : BoundAt b t r) : BoundAt b s r := by
  cases h' with
  | exact h1 h2 => exact .exact h1 (Mark.after h h2)
  | between h1 h2 h3 h4 h5 => exact .between h1 h2 (Mark.after h h3) h4 h5
  | upTo h1 h2 h3 => exact .upTo h1 (Mark.after h h2) h3
  | atLeast h1 h2 h3 => exact .atLeast h1 (Mark.after h h2) h3

theorem Spec.BoundsAt.after {b : Option (Spec.Bound × Option Str)} {s t r : Str} (h : Notes s t)
    (h' : BoundsAt b t r) : ∃ r', BoundsAt b s r' ∧ Gap r' r := by
  cases h' with
  | none => exact ⟨s, .none, h.gap⟩
  | bound h1 h2 => exact ⟨r, .bound (BoundAt.after h h1) h2, .none⟩
  | sep h1 h2 h3 h4 h5 => exact ⟨r, .sep (BoundAt.after h h1) h2 h3 h4 h5, .none⟩

theorem tok_sat (t s : Str) : P.Sat (fun _ r => Mark t s r) (tok t s) := by
  unfold tok
  split
  · rename_i h
    obtain ⟨u, hu⟩ := (startsWith_iff _ _).1 h
    refine .ok ?_
    have := skip_notes s
    rw [hu] at this
    rw [hu, List.drop_left]
    exact this
  · exact .fail

theorem takeWhile_mark (p : Char → Bool) (s : Str) :
    Mark ((skip s).takeWhile p) s ((skip s).drop ((skip s).takeWhile p).length) := by
  have := takeWhile_drop p (skip s)
  unfold Mark
  rw [← this]
  exact skip_notes s

theorem takeWhile_all (p : Char → Bool) (s : Str) : (s.takeWhile p).all p = true :=
  List.all_eq_true.2 fun _ hx => mem_takeWhile_of hx

theorem intTok_sat (s : Str) :
    P.Sat (fun n r => ∃ ds, Spec.numeral ds = true ∧ n = Spec.natOf ds ∧ Mark ds s r) (intTok s) := by
  unfold intTok
  dsimp only
  split
  · exact .fail
  · rename_i hne
    refine .ok ⟨_, numeral_iff.2 ⟨takeWhile_all _ _, by simpa using hne⟩, numVal_eq (takeWhile_all _ _), takeWhile_mark _ _⟩

theorem realTok_sat (s : Str) :
    P.Sat (fun q r => ∃ n : Spec.Num, n.ok = true ∧ q = n.value ∧ Mark n.source s r) (realTok s) := by
  have hsk := skip_notes s
  unfold realTok
  dsimp only
  generalize skip s = t at hsk
  obtain ⟨sg, u, ht, hu, hneg, hsg⟩ : ∃ sg u, t = sg ++ u ∧
      (if (t.head? == some '-' || t.head? == some '+') = true then t.drop 1 else t) = u ∧
      ((t.head? == some '-') = (sg == c!"-")) ∧ [[], c!"+", c!"-"].contains sg = true := by
    cases t with
    | nil => exact ⟨[], [], rfl, rfl, rfl, rfl⟩
    | cons c t =>
      by_cases h1 : c = '-'
      · subst h1; exact ⟨c!"-", t, rfl, rfl, rfl, rfl⟩
      · by_cases h2 : c = '+'
        · subst h2; exact ⟨c!"+", t, rfl, rfl, rfl, rfl⟩
        · refine ⟨[], c :: t, rfl, ?_, ?_, rfl⟩
          · simp [h1, h2]
          · simp [h1]
  rw [hu, hneg]
  have ha := takeWhile_all isNum u
  have hus : u = u.takeWhile isNum ++ u.drop (u.takeWhile isNum).length := takeWhile_drop _ _
  split
  · rename_i v e
    split
    · exact .fail
    · rename_i hne
      have hb := takeWhile_all isNum v
      have hvs : v = v.takeWhile isNum ++ v.drop (v.takeWhile isNum).length := takeWhile_drop _ _
      refine .ok ⟨⟨u.takeWhile isNum, some (v.takeWhile isNum), sg⟩, ?_, ?_, ?_⟩
      · simp only [Spec.Num.ok, digit_eq, ha, hb, hsg, Bool.and_true, Bool.true_and]
        simp only [Bool.and_eq_true, List.isEmpty_iff, not_and] at hne
        simp only [Bool.or_eq_true, bne_iff_ne, ne_eq]
        tauto
      · simp only [Spec.Num.value, beq_iff_eq, decVal_eq ha hb]
        split <;> simp
      · unfold Mark Spec.Num.source
        rw [ht, hus, e] at hsk
        simp only [List.append_assoc, List.cons_append, List.nil_append] at hsk ⊢
        rw [hvs] at hsk
        simpa using hsk
  · exact .fail

theorem nameTok_sat (s : Str) : P.Sat (fun n r => Spec.varName n = true ∧ Mark n s r) (nameTok s) := by
  have hsk := skip_notes s
  unfold nameTok
  split
  · exact .fail
  · rename_i c cs e
    rw [e] at hsk
    split
    · rename_i hc
      refine .ok ⟨?_, ?_⟩
      · have hall := takeWhile_all (fun c => isAlpha c || isNum c || c == '_' || c == '-') cs
        simp only [Spec.varName, Spec.beginsWith, List.head?_cons, Option.any_some, letter_eq, digit_eq,
          Bool.and_eq_true, List.all_cons, List.all_eq_true] at hall ⊢
        refine ⟨?_, ?_, fun x hx => ?_⟩
        · simpa [or_assoc] using hc
        · simp only [Bool.or_eq_true, beq_iff_eq] at hc
          simp only [Bool.or_eq_true, List.contains_iff_mem, List.mem_cons, List.not_mem_nil, or_false]
          tauto
        · have := hall x hx
          simp only [Bool.or_eq_true, beq_iff_eq] at this
          simp only [Bool.or_eq_true, List.contains_iff_mem, List.mem_cons, List.not_mem_nil, or_false]
          tauto
      · unfold Mark
        have : cs = cs.takeWhile (fun c => isAlpha c || isNum c || c == '_' || c == '-') ++
            cs.drop (cs.takeWhile (fun c => isAlpha c || isNum c || c == '_' || c == '-')).length := takeWhile_drop _ _
        rw [List.cons_append, ← this]
        exact hsk
    · exact .fail

theorem samplerTok_sat (s : Str) : P.Sat (fun m r => Mark (Spec.methodSource (some m)) s r) (samplerTok s) := by
  have hsk := skip_notes s
  unfold samplerTok
  split
  · rename_i r e; rw [e] at hsk; exact .ok hsk
  · rename_i r e; rw [e] at hsk; exact .ok hsk
  · rename_i r e; rw [e] at hsk; exact .ok hsk
  · exact .fail

theorem boundRangeTok_sat (s : Str) : P.Sat (fun x r => ∃ b, x = toSpec b ∧ BoundAt b s r) (boundRangeTok s) := by
  unfold boundRangeTok
  refine .or ((intTok_sat s).bind fun lo t ⟨l, h1, h2, h3⟩ => (tok_sat _ t).bind fun _ u h4 => (intTok_sat u).bind
      fun hi v ⟨h, h5, h6, h7⟩ => .ok ⟨.between l h, by rw [h2, h6]; rfl, .between h1 h5 h3 h4 h7⟩)
    (.or ((tok_sat _ s).bind fun _ u h4 => (intTok_sat u).bind
      fun hi v ⟨h, h5, h6, h7⟩ => .ok ⟨.upTo h, by rw [h6]; rfl, .upTo h5 h4 h7⟩)
    (.or ((intTok_sat s).bind fun lo t ⟨l, h1, h2, h3⟩ => (tok_sat _ t).bind fun _ u h4 =>
      .ok ⟨.atLeast l, by rw [h2]; rfl, .atLeast h1 h3 h4⟩)
    ((intTok_sat s).bind fun lo t ⟨l, h1, h2, h3⟩ => .ok ⟨.exact l, by rw [h2]; rfl, .exact h1 h3⟩)))

theorem sepTok_sat (s : Str) :
    P.Sat (fun w r => Spec.separator w = true ∧ ∃ t, Mark w s t ∧ Mark c!"$$" t r) (sepTok s) := by
  unfold sepTok
  dsimp only
  split
  · exact .fail
  · rename_i hne
    refine (tok_sat _ _).bind fun _ r h => .ok ⟨?_, _, takeWhile_mark _ _, h⟩
    simp only [Spec.separator, Bool.and_eq_true, List.all_eq_true]
    refine ⟨by simpa using hne, fun c hc => ?_⟩
    have := mem_takeWhile_of hc
    simp only [isSepChar, isPrintable, Bool.and_eq_true, decide_eq_true_eq, bne_iff_ne, ne_eq] at this
    simp [this]

theorem boundExpr_sat (s : Str) :
    P.Sat (fun x r => ∃ b sep t, x = (toSpec b, Option.getD sep c!",") ∧ BoundsAt (some (b, sep)) s t ∧ Notes t r)
      (boundExpr s) := by
  unfold boundExpr
  refine (boundRangeTok_sat s).bind fun x t ⟨b, hb, h1⟩ => (tok_sat _ t).bind fun _ u h2 => ?_
  refine P.Sat.bind (Q := fun sep r => ∃ v, BoundsAt (some (b, sep)) s v ∧ Notes v r) ?_ fun sep r ⟨v, h3, h4⟩ =>
    .ok ⟨b, sep, v, by rw [hb], h3, h4⟩
  refine (sepTok_sat u).opt ⟨u, .bound h1 h2, skip_notes u⟩ fun w r ⟨h5, v, h6, h7⟩ => ⟨r, .sep h1 h2 h5 h6 h7, .none⟩

theorem weightTok_sat (s : Str) : P.Sat (fun q r => WeightAt q s r) (weightTok s) := by
  unfold weightTok
  refine P.Sat.bind (Q := fun q r => ∃ n : Spec.Num, n.ok = true ∧ q = n.value ∧ Mark n.source s r) ?_
    fun q t ⟨n, h1, h2, h3⟩ => (tok_sat _ t).bind fun _ r h4 => .ok (by rw [h2]; exact .some h1 h3 h4)
  refine .or (realTok_sat s) ((intTok_sat s).bind fun n r ⟨ds, h1, h2, h3⟩ => .ok ⟨⟨ds, none, []⟩, ?_, ?_, ?_⟩)
  · exact h1
  · rw [h2]; rfl
  · exact h3

theorem specTok_sat (s : Str) :
    P.Sat (fun w r => w ≠ [] ∧ ')' ∉ w ∧ ∃ s1 s2 s3, Gap s s1 ∧ Mark c!"(" s1 s2 ∧ Mark w s2 s3 ∧ Mark c!")" s3 r)
      (specTok s) := by
  unfold specTok
  refine (tok_sat _ _).bind fun _ t h1 => ?_
  dsimp only
  split
  · exact .fail
  · rename_i hne
    refine (tok_sat _ _).bind fun _ r h2 => .ok ⟨by simpa using hne, fun hm => ?_, _, _, _, optWs_reads s, h1,
      takeWhile_mark _ _, h2⟩
    have := mem_takeWhile_of hm
    simp at this

/-! ## Plain text -/

theorem litRun_sat (wrap : Str) (ex : Char → Bool) : ∀ s : Str,
    s = (litRun wrap ex s).1 ++ (litRun wrap ex s).2 ∧ (∀ c ∈ (litRun wrap ex s).1, ex c = false) ∧
      ∀ a b, (litRun wrap ex s).1 = a ++ b → b ≠ [] → ¬ wrap <+: b ++ (litRun wrap ex s).2
  | [] => by
    refine ⟨rfl, by simp [litRun], fun a b h hb => ?_⟩
    simp only [litRun, List.nil_eq, List.append_eq_nil_iff] at h
    exact absurd h.2 hb
  | c :: cs => by
    obtain ⟨ih1, ih2, ih3⟩ := litRun_sat wrap ex cs
    unfold litRun
    split
    · refine ⟨rfl, by simp, fun a b h hb => ?_⟩
      simp only [List.nil_eq, List.append_eq_nil_iff] at h
      exact absurd h.2 hb
    · rename_i h
      rw [Bool.or_eq_true, not_or] at h
      refine ⟨?_, ?_, ?_⟩
      · dsimp only; rw [List.cons_append, ← ih1]
      · intro x hx
        rcases List.mem_cons.1 hx with rfl | hx
        · simpa using h.1
        · exact ih2 x hx
      · intro a b hab hb
        dsimp only at hab ⊢
        cases a with
        | nil =>
          rw [List.nil_append] at hab
          rw [← hab, List.cons_append, ← ih1]
          intro hp
          exact h.2 (List.isPrefixOf_iff_prefix.2 hp)
        | cons x a =>
          simp only [List.cons_append, List.cons.injEq] at hab
          exact ih3 a b hab.2 hb

variable {M : Spec.Marks} {al : Char → Bool}

theorem litPieces_sat (l : Place) (ex : Char → Bool) (hex : ∀ c, ex c = (l.special M).contains c) :
    ∀ (n : Nat) (s : Str), (litPieces M.wildcardWrap ex n s).1 ≠ [] →
      TextAt M l (litPieces M.wildcardWrap ex n s).1 s (litPieces M.wildcardWrap ex n s).2
  | 0, s, h => absurd rfl h
  | n + 1, s, h => by
    obtain ⟨h1, h2, h3⟩ := litRun_sat M.wildcardWrap ex (skip s)
    have ih := litPieces_sat l ex hex n (litRun M.wildcardWrap ex (skip s)).2
    unfold litPieces at h ⊢
    dsimp only at h ⊢
    split at h
    · exact absurd rfl h
    · rename_i hne
      rw [if_neg hne]
      have hone : TextAt M l [(litRun M.wildcardWrap ex (skip s)).1] s (litRun M.wildcardWrap ex (skip s)).2 := by
        refine .one (by simpa using hne) (fun c hc hm => ?_) h3 ?_
        · have := h2 c hc
          rw [hex, List.contains_iff_mem.2 hm] at this
          cases this
        · unfold Mark
          rw [← h1]
          exact skip_notes s
      by_cases hm : (litPieces M.wildcardWrap ex n (litRun M.wildcardWrap ex (skip s)).2).1 = []
      · have hr : (litPieces M.wildcardWrap ex n (litRun M.wildcardWrap ex (skip s)).2).2 =
            (litRun M.wildcardWrap ex (skip s)).2 := by
          cases n with
          | zero => rfl
          | succ n =>
            unfold litPieces at hm ⊢
            dsimp only at hm ⊢
            split at hm
            · rename_i h0; rw [if_pos h0]
            · cases hm
        rw [hm, hr]
        exact hone
      · exact .more hone (ih hm)

theorem literal_sat (l : Place) (ex : Char → Bool) (hex : ∀ c, ex c = (l.special M).contains c) (s : Str) :
    P.Sat (fun c r => ∃ us, c = .lit (pyJoin c!" " us) none ∧ TextAt M l us s r) (literal M.wildcardWrap ex s) := by
  unfold literal
  dsimp only
  split
  · exact .fail
  · rename_i h
    exact .ok ⟨_, rfl, litPieces_sat l ex hex _ _ (by simpa using h)⟩

theorem seqCmd_together (cs : List Cmd) : seqCmd cs = Spec.together cs := by
  match cs with
  | [] => rfl
  | [_] => rfl
  | _ :: _ :: _ => rfl

/-! ## Parts -/

theorem many_sat {stop : Str → Bool} {p : Str → P Cmd} {l : Place}
    (h : ∀ s, P.Sat (fun c r => Readable M al (.part l c) s r) (p s)) :
    ∀ (n : Nat) (s : Str), P.Sat (fun cs r => Readable M al (.parts l cs) s r) (many stop p n s)
  | 0, _ => .fuel
  | n + 1, s => by
    unfold many
    split
    · exact .ok .nil
    · have hp := h s
      split
      · rename_i a r e
        have ha := hp a r e
        exact (many_sat h n r).bind fun as r' has => .ok (.cons ha has)
      · exact .ok .nil
      · exact .err
      · exact .fuel

section
variable {vp : Str → P Cmd}
  (hv : ∀ s, P.Sat (fun c r => ∃ cs, c = Spec.together cs ∧ Readable M al (.parts .inside cs) s r) (vp s))
include hv

theorem optionTok_sat (s : Str) : P.Sat (fun o r => Readable M al (.options [o]) s r) (optionTok vp s) := by
  unfold optionTok
  dsimp only
  refine P.Sat.bind (Q := fun w r => ∃ t, WeightAt (w.getD 1) (optWs s) t ∧ Notes t r) ?_ fun w r ⟨t, hw, hn⟩ =>
    (hv r).bind fun c u ⟨cs, hc, hcs⟩ => .ok ?_
  · exact (weightTok_sat _).opt ⟨_, .none, skip_notes _⟩ fun w r h => ⟨r, h, .none⟩
  · rw [hc]
    exact .option (optWs_reads s) hw (.notes hn hcs) (optWs_reads u)

theorem optionsMore_sat : ∀ (n : Nat) (o : Cmd × Rat) (s0 s s' : Str), Readable M al (.options [o]) s0 s → Notes s s' →
    P.Sat (fun os r => ∃ t, Readable M al (.options (o :: os)) s0 t ∧ Notes t r)
      (many (fun _ => false) (fun s => (tok c!"|" s).bind fun _ s => optionTok vp s) n s')
  | 0, _, _, _, _, _, _ => .fuel
  | n + 1, o, s0, s, s', ho, hn => by
    unfold many
    rw [if_neg (by simp)]
    have hp : P.Sat (fun o' r => ∃ u, Mark c!"|" s' u ∧ Readable M al (.options [o']) u r)
        ((tok c!"|" s').bind fun _ s => optionTok vp s) :=
      (tok_sat _ s').bind fun _ u h1 => (optionTok_sat hv u).bind (R := fun o' r => ∃ u, Mark c!"|" s' u ∧
        Readable M al (.options [o']) u r) (f := fun a r => .ok a r) (fun o' r h2 => .ok ⟨u, h1, h2⟩) |> fun h => by
          intro a r e
          have := h a r (by rw [e]; rfl)
          exact this
    split
    · rename_i a r e
      obtain ⟨u, h1, h2⟩ := hp a r e
      refine (optionsMore_sat n a u r r h2 .none).bind fun as r' ⟨t, h3, h4⟩ => .ok ⟨t, ?_, h4⟩
      exact .options ho (Mark.after hn h1) h3
    · exact .ok ⟨s, ho, hn⟩
    · exact .err
    · exact .fuel

theorem optionsTok_sat (s : Str) :
    P.Sat (fun os r => ∃ t, Readable M al (.options os) s t ∧ Notes t r) (optionsTok vp s) := by
  unfold optionsTok
  exact (optionTok_sat hv s).bind fun o t ho => (optionsMore_sat hv _ o s t _ ho (skip_notes t)).bind
    fun os r h => .ok h

theorem variantsTok_sat (l : Place) (s : Str) :
    P.Sat (fun c r => Readable M al (.part l c) s r) (variantsTok (.of M al) vp s) := by
  unfold variantsTok
  dsimp only
  refine (tok_sat _ s).bind fun _ s1 h1 => ?_
  refine P.Sat.bind (Q := fun m r => ∃ t, MethodAt m (optWs s1) t ∧ Notes t r) ((samplerTok_sat _).opt
    ⟨_, .none, skip_notes _⟩ fun m r h => ⟨r, .some h, .none⟩) fun m s3 ⟨t, hm, hn⟩ => ?_
  refine P.Sat.bind (Q := fun b r => ∃ b' u, b = Option.map (fun x => (toSpec x.1, x.2.getD c!",")) b' ∧
    BoundsAt b' s3 u ∧ Notes u r) ((boundExpr_sat _).opt ⟨none, _, rfl, .none, skip_notes _⟩
      fun x r ⟨b, sep, u, e, hb, hn⟩ => ⟨some (b, sep), u, by rw [e]; rfl, hb, hn⟩) fun b s4 ⟨b', u, hb, hbs, hn'⟩ => ?_
  refine (optionsTok_sat hv _).bind fun os s6 ⟨v, ho, hn6⟩ => (tok_sat _ _).bind fun _ r hr => .ok ?_
  rw [hb, variantCmd_eq]
  obtain ⟨u', hbs', hg⟩ := Spec.BoundsAt.after hn hbs
  exact .choice h1 (optWs_reads s1) hm hbs' ((hg.trans hn'.gap).trans (optWs_reads s4)) ho
    (hn6.gap.trans (optWs_reads s6)) hr

theorem accessTok_sat (s : Str) : P.Sat (fun nd r => Spec.varName nd.1 = true ∧ ∃ s1 s2 s3 s4, Mark M.variableStart s s1 ∧
    Gap s1 s2 ∧ Mark nd.1 s2 s3 ∧ Gap s3 s4 ∧ ((nd.2 = none ∧ Mark M.variableEnd s4 r) ∨
      ∃ cs s5 s6 s7 s8, nd.2 = some (Spec.together cs) ∧ Mark c!":" s4 s5 ∧ Gap s5 s6 ∧
        Readable M al (.parts .inside cs) s6 s7 ∧ Gap s7 s8 ∧ Mark M.variableEnd s8 r)) (accessTok (.of M al) vp s) := by
  unfold accessTok
  dsimp only
  refine (tok_sat _ s).bind fun _ s1 h1 => (nameTok_sat _).bind fun n s3 ⟨hn, h2⟩ => ?_
  refine P.Sat.bind (Q := fun d r => (d = none ∧ Notes (optWs s3) r) ∨ ∃ cs s5 s6, d = some (Spec.together cs) ∧
    Mark c!":" (optWs s3) s5 ∧ Gap s5 s6 ∧ Readable M al (.parts .inside cs) s6 r) ?_ ?_
  · refine P.Sat.opt (Q := fun d r => ∃ cs s5 s6, d = Spec.together cs ∧ Mark c!":" (optWs s3) s5 ∧ Gap s5 s6 ∧
      Readable M al (.parts .inside cs) s6 r) ?_ (.inl ⟨rfl, skip_notes _⟩) ?_
    · exact (tok_sat _ _).bind fun _ s5 h5 => (hv _).weaken fun c r ⟨cs, hc, hcs⟩ =>
        ⟨cs, s5, _, hc, h5, optWs_reads s5, hcs⟩
    · rintro d r ⟨cs, s5, s6, hd, h⟩
      exact .inr ⟨cs, s5, s6, by rw [hd], h⟩
  · rintro d s7 (⟨rfl, hno⟩ | ⟨cs, s5, s6, rfl, h5, h6, h7⟩)
    · exact (tok_sat _ _).bind fun _ r hr => .ok ⟨hn, s1, _, s3, _, h1, optWs_reads s1, h2,
        ((optWs_reads s3).trans hno.gap).trans (optWs_reads s7), .inl ⟨rfl, hr⟩⟩
    · exact (tok_sat _ _).bind fun _ r hr => .ok ⟨hn, s1, _, s3, _, h1, optWs_reads s1, h2, optWs_reads s3,
        .inr ⟨cs, s5, s6, s7, _, rfl, h5, h6, h7, optWs_reads s7, hr⟩⟩

theorem variableAccess_sat {l : Place} (hl : l ≠ .path) (s : Str) :
    P.Sat (fun c r => Readable M al (.part l c) s r) (variableAccess (.of M al) vp s) := by
  unfold variableAccess
  refine (accessTok_sat hv s).bind ?_
  rintro ⟨n, d⟩ r ⟨hn, s1, s2, s3, s4, h1, h2, h3, h4, ⟨e, h5⟩ | ⟨cs, s5, s6, s7, s8, e, h5, h6, h7, h8, h9⟩⟩ <;>
    dsimp only at e <;> subst e
  · exact .ok (.get hl h1 h2 hn h3 h4 h5)
  · exact .ok (.getD hl h1 h2 hn h3 h4 h5 h6 h7 h8 h9)

omit hv in
theorem readable_options_ne {g : Spec.Goal} {s r : Str} (h : Readable M al g s r) : ∀ os, g = .options os → os ≠ [] := by
  induction h with
  | notes _ _ ih => exact ih
  | option => rintro os ⟨⟩; simp
  | options => rintro os ⟨⟩; simp
  | _ => rintro os ⟨⟩

omit hv in
theorem variantOf_options (m : Option Method) (b : Option (Spec.Bound × Option Str)) (os : List (Cmd × Rat)) :
    ∃ lo hi sep, Spec.variantOf m b os = .variant os lo hi sep m := by
  cases b with
  | none => exact ⟨_, _, _, rfl⟩
  | some b => exact ⟨_, _, _, rfl⟩

omit hv in
theorem readable_part {g : Spec.Goal} {s r : Str} (h : Readable M al g s r) :
    ∀ l c, g = .part l c → c.truthy = true ∧ ∀ t m, c = .lit t m → m = none := by
  induction h with
  | notes _ _ ih => exact ih
  | @choice l m b os _ _ _ _ _ _ _ _ _ _ _ _ _ _ ho =>
    rintro l c ⟨⟩
    have := readable_options_ne ho os rfl
    obtain ⟨lo, hi, sep, e⟩ := variantOf_options m b os
    rw [e]
    refine ⟨by simpa [Cmd.truthy] using this, by rintro t m ⟨⟩⟩
  | text => rintro l c ⟨⟩; exact ⟨rfl, by rintro t m ⟨⟩; rfl⟩
  | pathText => rintro l c ⟨⟩; exact ⟨rfl, by rintro t m ⟨⟩; rfl⟩
  | wild => rintro l c ⟨⟩; exact ⟨rfl, by rintro t m ⟨⟩⟩
  | wildP => rintro l c ⟨⟩; exact ⟨rfl, by rintro t m ⟨⟩⟩
  | get => rintro l c ⟨⟩; exact ⟨rfl, by rintro t m ⟨⟩⟩
  | getD => rintro l c ⟨⟩; exact ⟨rfl, by rintro t m ⟨⟩⟩
  | pathGet => rintro l c ⟨⟩; exact ⟨rfl, by rintro t m ⟨⟩⟩
  | pathGetE => rintro l c ⟨⟩; exact ⟨rfl, by rintro t m ⟨⟩⟩
  | pathGetD => rintro l c ⟨⟩; exact ⟨rfl, by rintro t m ⟨⟩⟩
  | set => rintro l c ⟨⟩; exact ⟨rfl, by rintro t m ⟨⟩⟩
  | wrap => rintro l c ⟨⟩; exact ⟨rfl, by rintro t m ⟨⟩⟩
  | _ => rintro l c ⟨⟩

omit hv in
theorem readable_parts {g : Spec.Goal} {s r : Str} (h : Readable M al g s r) :
    ∀ l cs, g = .parts l cs → ∀ c ∈ cs, c.truthy = true ∧ ∀ t m, c = .lit t m → m = none := by
  induction h with
  | notes _ _ ih => exact ih
  | nil => rintro l cs ⟨⟩; simp
  | cons h _ _ ih =>
    rintro l cs ⟨⟩ c hc
    rcases List.mem_cons.1 hc with rfl | hc
    · exact readable_part h _ _ rfl
    · exact ih _ _ rfl c hc
  | _ => rintro l c ⟨⟩

theorem wildcardVariableAccess_sat (s : Str) :
    P.Sat (fun c r => Readable M al (.part .path c) s r) (wildcardVariableAccess (.of M al) vp s) := by
  unfold wildcardVariableAccess
  refine (accessTok_sat hv s).bind ?_
  rintro ⟨n, d⟩ r ⟨hn, s1, s2, s3, s4, h1, h2, h3, h4, ⟨e, h5⟩ | ⟨cs, s5, s6, s7, s8, e, h5, h6, h7, h8, h9⟩⟩ <;>
    dsimp only at e hn h3 ⊢ <;> subst e
  · refine .ok ?_
    rw [varName_trimmed hn]
    exact .pathGet h1 h2 hn h3 h4 h5
  · have hp := readable_parts h7 _ _ rfl
    dsimp only
    match cs, h7, hp with
    | [], h7, _ =>
      refine .ok ?_
      rw [varName_trimmed hn]
      exact .pathGetE h1 h2 hn h3 h4 h5 h6 h7 h8 h9
    | [c], h7, hp =>
      obtain ⟨ht, hm⟩ := hp c (by simp)
      simp only [Spec.together, ht, if_true]
      cases c with
      | lit t m =>
        obtain rfl := hm t m rfl
        exact .ok (.pathGetD h1 h2 hn h3 h4 h5 h6 h7 h8 h9)
      | _ => exact .err
    | _ :: _ :: _, _, _ => exact .err

theorem variableAssignment_sat (s : Str) :
    P.Sat (fun c r => Readable M al (.part .top c) s r) (variableAssignment (.of M al) vp s) := by
  unfold variableAssignment
  dsimp only
  refine (tok_sat _ s).bind fun _ s1 h1 => (nameTok_sat _).bind fun n s3 ⟨hn, h2⟩ => ?_
  have hopt : ∀ (t : Str) (s : Str), P.Sat (fun (o : Option Unit) r => Mark (if o.isSome then t else []) s r)
      (P.opt (tok t s) (skip s)) := fun t s => (tok_sat t s).opt (skip_notes s) fun _ r h => h
  exact (hopt _ _).bind fun k s5 h5 => (tok_sat _ _).bind fun _ s6 h6 => (hopt _ _).bind fun i s7 h7 =>
    (hv _).bind fun v s9 ⟨cs, hc, h9⟩ => (tok_sat _ _).bind fun _ r hr => .ok (by
      rw [hc]
      exact .set h1 (optWs_reads s1) hn h2 (optWs_reads s3) h5 h6 h7 (optWs_reads s7) h9 (optWs_reads s9) hr)

theorem wrapCommand_sat {l : Place} (hl : l ≠ .path) (s : Str) :
    P.Sat (fun c r => Readable M al (.part l c) s r) (wrapCommand (.of M al) vp s) := by
  unfold wrapCommand
  exact (tok_sat _ s).bind fun _ s1 h1 => (hv _).bind fun a s3 ⟨as, ha, h3⟩ => (tok_sat _ _).bind fun _ s5 h5 =>
    (hv _).bind fun b s7 ⟨bs, hb, h7⟩ => (tok_sat _ _).bind fun _ r hr => .ok (by
      rw [ha, hb]
      exact .wrap hl h1 (optWs_reads s1) h3 (optWs_reads s3) h5 (optWs_reads s5) h7 hr)

theorem wildcardPath_sat (s : Str) : P.Sat (fun c r => ∃ cs, cs ≠ [] ∧ c = Spec.together cs ∧
    Readable M al (.parts .path cs) s r) (wildcardPath (.of M al) vp s) := by
  unfold wildcardPath
  refine P.Sat.bind (many_sat (M := M) (al := al) (l := .path) (fun s => ?_) _ _) fun cs r h => ?_
  · refine .or (wildcardVariableAccess_sat hv s) (.or (variantsTok_sat hv _ s) (.or ?_ ?_))
    · refine (literal_sat (M := M) .path _ (fun c => exOf_eq .path c) s).weaken ?_
      rintro c r ⟨us, rfl, h⟩
      exact .text h
    · refine (literal_sat (M := M) .inside _ (fun c => exOf_eq .inside c) s).weaken ?_
      rintro c r ⟨us, rfl, h⟩
      exact .pathText h
  · split
    · exact .fail
    · rename_i hne
      exact .ok ⟨cs, by simpa using hne, seqCmd_together cs, .notes (skip_notes s) h⟩

omit hv in
theorem partition_param (p : Str) :
    ParamAt p (strip (p.takeWhile (· ≠ '='))) (strip (p.drop ((p.takeWhile (· ≠ '=')).length + 1))) := by
  have h1 := takeWhile_drop (· ≠ '=') p
  have hk : '=' ∉ p.takeWhile (· ≠ '=') := by
    intro hm
    have := mem_takeWhile_of hm
    simp at this
  generalize hkd : p.takeWhile (· ≠ '=') = k at h1 hk
  cases hd : p.drop k.length with
  | nil =>
    have : p.drop (k.length + 1) = [] := by rw [← List.drop_drop, hd]; rfl
    rw [this]
    rw [hd, List.append_nil] at h1
    rw [h1]
    exact .bare hk
  | cons c v =>
    have h2 : p.drop (k.length + 1) = v := by rw [← List.drop_drop, hd]; rfl
    have hc : c = '=' := by
      have h3 := drop_takeWhile (· ≠ '=') p
      have h4 := List.head?_dropWhile_not (· ≠ '=') p
      rw [hkd, hd] at h3
      rw [← h3] at h4
      simpa using h4
    rw [h2]
    rw [hd, hc] at h1
    conv => arg 1; rw [h1]
    have := ParamAt.value (v := v) hk
    simpa using this

omit hv in
theorem pyJoin_split (c : Char) (s : Str) : pyJoin [c] (splitChar c s) = s ∧ ∀ x ∈ splitChar c s, c ∉ x := by
  unfold splitChar
  constructor
  · induction s with
    | nil => rfl
    | cons d s ih =>
      simp only [splitAt1]
      split
      · rename_i hc
        simp at hc; subst hc
        rw [pyJoin_cons _ _ _ (splitAt1_ne_nil _ _), ih]; rfl
      · cases hsp : splitAt1 (fun x => x == c) s with
        | nil => exact absurd hsp (splitAt1_ne_nil _ _)
        | cons a l =>
          rw [hsp] at ih
          cases l with
          | nil => simpa [consHead, pyJoin] using ih
          | cons b l => simpa [consHead, pyJoin] using ih
  · intro x hx hc
    have := (splitAt1_mem hx).2 c hc
    simp at this

variable {pv : Str → P Cmd} (hp : ∀ s, P.Sat (fun c _ => Readable M al (.template c) s []) (pv s))
include hp

omit hv in
theorem parseSpec_sat : ∀ ts : List Str, P.Sat (fun l _ => ∃ ps : List RawParam, ps.map (·.text) = ts ∧
    l = ps.map (fun p => (p.name, p.cmd)) ∧ (∀ p ∈ ps, ParamAt p.text p.name p.value) ∧
      ∀ p ∈ ps, Readable M al (.template p.cmd) p.value []) (parseSpec pv ts)
  | [] => .ok ⟨[], rfl, rfl, by simp, by simp⟩
  | t :: ts => by
    unfold parseSpec
    refine (hp _).bind fun c _ hc => (parseSpec_sat ts).bind fun l _ ⟨ps, h1, h2, h3, h4⟩ => .ok
      ⟨⟨t, strip (t.takeWhile (· ≠ '=')), strip (t.drop ((t.takeWhile (· ≠ '=')).length + 1)), c⟩ :: ps,
        by rw [List.map_cons, h1], by rw [h2]; rfl, ?_, ?_⟩
    · intro p hm
      rcases List.mem_cons.1 hm with rfl | hm
      · exact partition_param t
      · exact h3 p hm
    · intro p hm
      rcases List.mem_cons.1 hm with rfl | hm
      · exact hc
      · exact h4 p hm

omit hv hp in
theorem wildcardCmd_path (m : Option Method) (c : Cmd) (vars : List (Str × Cmd)) :
    wildcardCmd m c vars = .wild (Spec.pathOf c) m vars := by
  cases c <;> rfl

theorem wildcardTok_sat {l : Place} (hl : l ≠ .path) (s : Str) :
    P.Sat (fun c r => Readable M al (.part l c) s r) (wildcardTok (.of M al) vp pv s) := by
  unfold wildcardTok
  refine (tok_sat _ s).bind fun _ s1 h1 => ?_
  refine P.Sat.bind (Q := fun m r => ∃ t, MethodAt m s1 t ∧ Notes t r) ((samplerTok_sat _).opt
    ⟨_, .none, skip_notes _⟩ fun m r h => ⟨r, .some h, .none⟩) fun m s2 ⟨t, hm, hn⟩ => ?_
  refine (wildcardPath_sat hv s2).bind fun c s3 ⟨cs, hne, hc, hcs⟩ => ?_
  have hcs := Readable.notes hn hcs
  refine P.Sat.bind (Q := fun o r => (o = none ∧ Notes s3 r) ∨ ∃ w, o = some w ∧ w ≠ [] ∧ ')' ∉ w ∧ ∃ u1 u2 u3,
    Gap s3 u1 ∧ Mark c!"(" u1 u2 ∧ Mark w u2 u3 ∧ Mark c!")" u3 r) ((specTok_sat s3).opt (.inl ⟨rfl, skip_notes _⟩)
      fun w r h => .inr ⟨w, rfl, h⟩) ?_
  rintro o s4 (⟨rfl, hno⟩ | ⟨w, rfl, hw, hpar, u1, u2, u3, g1, g2, g3, g4⟩)
  · refine (tok_sat _ _).bind fun _ r hr => .ok ?_
    rw [wildcardCmd_path, hc]
    exact .wild hl h1 hm hne hcs (Mark.after hno hr)
  · refine (tok_sat _ _).bind fun _ r hr => ?_
    dsimp only
    refine (parseSpec_sat hp _).bind fun vars _ ⟨ps, e1, e2, e3, e4⟩ => .ok ?_
    obtain ⟨j1, j2⟩ := pyJoin_split ',' w
    rw [wildcardCmd_path, hc, e2]
    refine .wildP hl h1 hm hne hcs g1 g2 hw hpar g3 g4 hr (by rw [e1, j1]) ?_ e3 e4
    intro p hm
    exact j2 _ (by rw [← e1]; exact List.mem_map_of_mem hm)

theorem variantChunk_sat (s : Str) :
    P.Sat (fun c r => Readable M al (.part .inside c) s r) (variantChunk (.of M al) vp pv s) := by
  refine .or (variableAccess_sat hv (by simp) s) (.or (wrapCommand_sat hv (by simp) s) (.or (variantsTok_sat hv _ s)
    (.or (wildcardTok_sat hv hp (by simp) s) ?_)))
  refine (literal_sat (M := M) .inside _ (fun c => exOf_eq .inside c) s).weaken ?_
  rintro c r ⟨us, rfl, h⟩
  exact .text h

theorem chunk_sat (s : Str) :
    P.Sat (fun c r => Readable M al (.part .top c) s r) (chunk (.of M al) vp pv s) := by
  refine .or (variableAssignment_sat hv s) (.or (variableAccess_sat hv (by simp) s) (.or (wrapCommand_sat hv (by simp) s)
    (.or (variantsTok_sat hv _ s) (.or (wildcardTok_sat hv hp (by simp) s) ?_))))
  refine (literal_sat (M := M) .top _ (fun c => exOf_eq .top c) s).weaken ?_
  rintro c r ⟨us, rfl, h⟩
  exact .text h

theorem variantPrompt_sat (s : Str) : P.Sat (fun c r => ∃ cs, c = Spec.together cs ∧
    Readable M al (.parts .inside cs) s r) (variantPrompt (.of M al) vp pv s) := by
  unfold variantPrompt
  exact (many_sat (fun s => variantChunk_sat hv hp s) _ _).bind fun cs r h => .ok
    ⟨cs, seqCmd_together cs, .notes (skip_notes s) h⟩

theorem parseTok_sat (s : Str) : P.Sat (fun c _ => Readable M al (.template c) s []) (parseTok (.of M al) vp pv s) := by
  unfold parseTok promptTok
  split
  · rename_i h
    simp only [Bool.and_eq_true, Bool.not_eq_true', List.isEmpty_eq_false_iff] at h
    refine .ok (.word h.1 ?_)
    rw [← h.2]
    congr 1
    funext c
    simp only [Spec.alphanumeric, ParserCfg.isAlnum, letter_eq, digit_eq]
    rfl
  · refine (many_sat (fun s => chunk_sat hv hp s) _ _).bind fun cs r h => ?_
    split
    · rename_i he
      refine .ok ?_
      rw [seqCmd_together]
      have := optWs_reads r
      rw [he] at this
      exact .template (.notes (skip_notes s) h) this
    · exact .fail

end

theorem parsers_sat : ∀ n : Nat,
    (∀ s, P.Sat (fun c r => ∃ cs, c = Spec.together cs ∧ Readable M al (.parts .inside cs) s r)
      ((parsers (.of M al) n).1 s)) ∧
    ∀ s, P.Sat (fun c _ => Readable M al (.template c) s []) ((parsers (.of M al) n).2 s)
  | 0 => ⟨fun _ => .fuel, fun _ => .fuel⟩
  | n + 1 => ⟨fun s => variantPrompt_sat (parsers_sat n).1 (parsers_sat n).2 s,
      fun s => parseTok_sat (parsers_sat n).1 (parsers_sat n).2 s⟩

theorem parse_readable {s : Str} {c : Cmd} (h : parse (.of M al) s = .ok c) :
    Readable M al (.template c) (expandTabs 0 s) [] := by
  unfold parse parseAt at h
  split at h
  · rename_i c' r e
    simp only [Option.getD_some, Except.ok.injEq] at h
    subst h
    exact (parsers_sat _).2 _ _ _ e
  all_goals cases h

end Verif
