import Verif.Spec.Encodings
import Verif.Props.Crash
/-!
# C112 Text collections in any encoding
-/

namespace Verif.Props
open Verif Verif.Spec

theorem set_self {α : Type} {l : List α} {i : Nat} {x : α} (h : l[i]? = some x) (j : Nat) (y : α) :
    (l.set j y)[i]? = some (if j = i then y else x) := by
  have hl := (List.getElem?_eq_some_iff.1 h).1
  by_cases hj : j = i
  · subst hj; simp [hl]
  · rw [List.getElem?_set_ne hj, h, if_neg hj]

theorem values_file (fs : FTree Bytes) (f : TextFile) : (f.values fs).2.path = f.path ∧ (f.values fs).2.codec = f.codec := by
  unfold TextFile.values
  cases f.cache with
  | some _ => exact ⟨rfl, rfl⟩
  | none => cases fs.read f.path <;> exact ⟨rfl, rfl⟩

theorem write_file (fs : FTree Bytes) (f : TextFile) (s : Str) :
    (f.writeText fs s).2.2.path = f.path ∧ (f.writeText fs s).2.2.codec = f.codec := by
  unfold TextFile.writeText
  cases fs.write [] f.path with
  | none => exact ⟨rfl, rfl⟩
  | some e =>
    cases f.codec.encode s with
    | none => exact ⟨rfl, rfl⟩
    | some bs => cases h : e.write bs f.path <;> simp [h]

theorem call_values {d : Desk} {j : Nat} {f : TextFile} (h : d.files[j]? = some f) : d.call (.values j) =
    (match (f.values d.fs).1 with | .ok l => .values l | .error e => .failed e, { d with files := d.files.set j (f.values d.fs).2 }) := by
  simp only [Desk.call, h]
  rfl

theorem call_text {d : Desk} {j : Nat} {f : TextFile} (h : d.files[j]? = some f) : d.call (.text j) =
    (match f.text d.fs with | .ok s => .text s | .error e => .failed e, d) := by
  simp only [Desk.call, h]
  rfl

theorem call_write {d : Desk} {j : Nat} {f : TextFile} (h : d.files[j]? = some f) (s : Str) : d.call (.write j s) =
    (match (f.writeText d.fs s).1 with | .ok _ => .done | .error e => .failed e,
      ⟨(f.writeText d.fs s).2.1, d.files.set j (f.writeText d.fs s).2.2⟩) := by
  simp only [Desk.call, h]
  rfl

theorem call_nobody {d : Desk} {j : Nat} (h : d.files[j]? = none) (s : Str) : (d.call (.values j)).2 = d ∧ (d.call (.text j)).2 = d ∧
    (d.call (.write j s)).2 = d := by
  simp only [Desk.call, h, and_self]

theorem call_edit {d : Desk} {q : Path} {b : Bytes} : (d.call (.edit q b)).2 = { d with fs := (d.fs.write b q).getD d.fs } := by
  simp only [Desk.call]
  cases d.fs.write b q <;> rfl

/-- Collections keep their file and encoding. -/
theorem onFile_call {d : Desk} {i : Nat} {p : Path} {c : Codec} (h : OnFile d i p c) (op : TextCall) : OnFile (d.call op).2 i p c := by
  obtain ⟨cache, h⟩ := h
  have key : ∀ j (f g : TextFile), d.files[j]? = some f → g.path = f.path → g.codec = f.codec →
      ∃ cache', (d.files.set j g)[i]? = some ⟨p, c, cache'⟩ := by
    intro j f g hj hp hc
    rw [set_self h j g]
    by_cases e : j = i
    · subst e
      rw [h] at hj
      cases hj
      refine ⟨g.cache, ?_⟩
      rw [if_pos rfl]
      cases g
      cases hp
      cases hc
      rfl
    · exact ⟨cache, by rw [if_neg e]⟩
  cases op with
  | values j =>
    cases hj : d.files[j]? with
    | none => rw [(call_nobody hj []).1]; exact ⟨cache, h⟩
    | some f => rw [call_values hj]; exact key j f _ hj (values_file _ f).1 (values_file _ f).2
  | text j =>
    cases hj : d.files[j]? with
    | none => rw [(call_nobody hj []).2.1]; exact ⟨cache, h⟩
    | some f => rw [call_text hj]; exact ⟨cache, h⟩
  | write j s =>
    cases hj : d.files[j]? with
    | none => rw [(call_nobody hj s).2.2]; exact ⟨cache, h⟩
    | some f => rw [call_write hj]; exact key j f _ hj (write_file _ f s).1 (write_file _ f s).2
  | edit q b => rw [call_edit]; exact ⟨cache, h⟩

theorem onFile_after {d : Desk} {i : Nat} {p : Path} {c : Codec} (h : OnFile d i p c) (ops : List TextCall) : OnFile (d.after ops) i p c := by
  induction ops generalizing d with
  | nil => exact h
  | cons op ops ih => exact ih (onFile_call h op)

theorem onFile_back {d : Desk} {j : Nat} {p : Path} {c : Codec} (op : TextCall) (h : OnFile (d.call op).2 j p c) : OnFile d j p c := by
  cases hj : d.files[j]? with
  | some f =>
    have := onFile_call (d := d) (i := j) (p := f.path) (c := f.codec) ⟨f.cache, hj⟩ op
    obtain ⟨c1, h1⟩ := this
    obtain ⟨c2, h2⟩ := h
    rw [h1] at h2
    cases h2
    exact ⟨f.cache, hj⟩
  | none =>
    exfalso
    obtain ⟨c2, h2⟩ := h
    have hl : ∀ op, (d.call op).2.files.length = d.files.length := by
      intro op
      cases op with
      | values k =>
        cases hk : d.files[k]? with
        | none => rw [(call_nobody hk []).1]
        | some f => rw [call_values hk]; simp
      | text k =>
        cases hk : d.files[k]? with
        | none => rw [(call_nobody hk []).2.1]
        | some f => rw [call_text hk]
      | write k s =>
        cases hk : d.files[k]? with
        | none => rw [(call_nobody hk s).2.2]
        | some f => rw [call_write hk]; simp
      | edit q b => rw [call_edit]
    have h3 := (List.getElem?_eq_some_iff.1 h2).1
    rw [hl] at h3
    rw [List.getElem?_eq_none_iff] at hj
    omega

theorem leavesAlone_call {d : Desk} {p : Path} (op op' : TextCall) (h : LeavesAlone d p op') : LeavesAlone (d.call op).2 p op' := by
  cases op' with
  | write j s => exact fun c hc => h c (onFile_back op hc)
  | values _ => trivial
  | text _ => trivial
  | edit _ _ => exact h

theorem writeText_elsewhere {fs : FTree Bytes} {f : TextFile} {s : Str} {p : Path} (h : f.path ≠ p) :
    (f.writeText fs s).2.1.read p = fs.read p := by
  unfold TextFile.writeText
  cases h1 : fs.write [] f.path with
  | none => rfl
  | some e =>
    have r1 := write_elsewhere h1 (Ne.symm h)
    cases f.codec.encode s with
    | none => exact r1
    | some bs =>
      cases h2 : e.write bs f.path with
      | none => simp only [h2]; exact r1
      | some fs' => simp only [h2]; exact (write_elsewhere h2 (Ne.symm h)).trans r1

/-- A file nothing is written to is as before. -/
theorem read_call {d : Desk} {p : Path} {op : TextCall} (h : LeavesAlone d p op) : (d.call op).2.fs.read p = d.fs.read p := by
  cases op with
  | values j =>
    cases hj : d.files[j]? with
    | none => rw [(call_nobody hj []).1]
    | some f => rw [call_values hj]
  | text j =>
    cases hj : d.files[j]? with
    | none => rw [(call_nobody hj []).2.1]
    | some f => rw [call_text hj]
  | write j s =>
    cases hj : d.files[j]? with
    | none => rw [(call_nobody hj s).2.2]
    | some f =>
      have hp : f.path ≠ p := by
        rintro rfl
        exact h f.codec ⟨f.cache, hj⟩
      rw [call_write hj]
      exact writeText_elsewhere hp
  | edit q b =>
    rw [call_edit]
    cases hq : d.fs.write b q with
    | none => rfl
    | some fs' => exact write_elsewhere hq (Ne.symm h)

theorem read_after {d : Desk} {p : Path} {ops : List TextCall} (h : ∀ op ∈ ops, LeavesAlone d p op) :
    (d.after ops).fs.read p = d.fs.read p := by
  induction ops generalizing d with
  | nil => rfl
  | cons op ops ih =>
    exact (ih fun op' h' => leavesAlone_call op op' (h op' (List.mem_cons_of_mem _ h'))).trans (read_call (h op (List.mem_cons_self ..)))

/-- What collection `i` has remembered. -/
def Cached (d : Desk) (i : Nat) (o : Option (List Str)) : Prop := ∃ p c, d.files[i]? = some ⟨p, c, o⟩

/-- A call that changes what collection `i` has remembered is its `get_values`, or its `write_text` that succeeds. -/
theorem cached_call {d : Desk} {i : Nat} {o : Option (List Str)} (h : Cached d i o) (op : TextCall)
    (h1 : op = .values i → o ≠ none) (h2 : ∀ s, op = .write i s → d.answer op ≠ .done) : Cached (d.call op).2 i o := by
  obtain ⟨p, c, h⟩ := h
  cases op with
  | values j =>
    cases hj : d.files[j]? with
    | none => rw [(call_nobody hj []).1]; exact ⟨p, c, h⟩
    | some f =>
      rw [call_values hj]
      refine ⟨p, c, ?_⟩
      show (d.files.set j _)[i]? = _
      rw [set_self h]
      split
      · rename_i e
        subst e
        rw [h] at hj
        cases hj
        cases o with
        | none => exact absurd rfl (h1 rfl)
        | some l => rfl
      · rfl
  | text j =>
    cases hj : d.files[j]? with
    | none => rw [(call_nobody hj []).2.1]; exact ⟨p, c, h⟩
    | some f => rw [call_text hj]; exact ⟨p, c, h⟩
  | write j s =>
    cases hj : d.files[j]? with
    | none => rw [(call_nobody hj s).2.2]; exact ⟨p, c, h⟩
    | some f =>
      have h3 : j = i → d.answer (.write j s) ≠ .done := by rintro rfl; exact h2 s rfl
      rw [Desk.answer, call_write hj] at h3
      rw [call_write hj]
      refine ⟨p, c, ?_⟩
      show (d.files.set j _)[i]? = _
      rw [set_self h]
      split
      · rename_i e
        subst e
        rw [h] at hj
        cases hj
        have h3 := h3 rfl
        revert h3
        unfold TextFile.writeText
        simp only
        cases d.fs.write [] p with
        | none => exact fun _ => rfl
        | some e =>
          simp only
          cases c.encode s with
          | none => exact fun _ => rfl
          | some bs =>
            simp only
            cases e.write bs p with
            | none => exact fun _ => rfl
            | some fs' => exact fun h3 => absurd rfl h3
      · rfl
  | edit q b => rw [call_edit]; exact ⟨p, c, h⟩

theorem cached_after {d : Desk} {i : Nat} {o : Option (List Str)} {ops : List TextCall} (h : Cached d i o)
    (h1 : TextCall.values i ∈ ops → o ≠ none) (h2 : NoWrite i d ops) : Cached (d.after ops) i o := by
  induction ops generalizing d with
  | nil => exact h
  | cons op ops ih =>
    exact ih (cached_call h op (by rintro rfl; exact h1 (List.mem_cons_self ..)) h2.1) (fun hm => h1 (List.mem_cons_of_mem _ hm)) h2.2

theorem answer_cached {d : Desk} {i : Nat} {l : List Str} (h : Cached d i (some l)) : d.answer (.values i) = .values l := by
  obtain ⟨p, c, h⟩ := h
  rw [Desk.answer, call_values h]
  rfl

theorem answer_fresh {d : Desk} {i : Nat} {p : Path} {c : Codec} {bs : Bytes} (h : d.files[i]? = some ⟨p, c, none⟩)
    (hf : d.fs.read p = some bs) : d.answer (.values i) = .values (textValues (c.decode bs)) ∧
      Cached (d.call (.values i)).2 i (some (textValues (c.decode bs))) := by
  rw [Desk.answer, call_values h]
  simp only [TextFile.values, hf, true_and]
  exact ⟨p, c, by rw [set_self h, if_pos rfl]⟩

theorem answer_text {d : Desk} {i : Nat} {p : Path} {c : Codec} {bs : Bytes} (h : OnFile d i p c)
    (hf : d.fs.read p = some bs) : d.answer (.text i) = .text (universalNewlines (c.decode bs)) := by
  obtain ⟨cache, h⟩ := h
  rw [Desk.answer, call_text h]
  simp only [TextFile.text, hf]

/-- A `write_text` that succeeds. -/
theorem write_done {d : Desk} {i : Nat} {p : Path} {c : Codec} {s : Str} (h : OnFile d i p c) (hd : d.answer (.write i s) = .done) :
    ∃ bs, c.encode s = some bs ∧ (d.call (.write i s)).2.fs.read p = some bs ∧ (d.call (.write i s)).2.files[i]? = some ⟨p, c, none⟩ := by
  obtain ⟨cache, h⟩ := h
  rw [Desk.answer, call_write h] at hd
  rw [call_write h]
  revert hd
  unfold TextFile.writeText
  simp only
  cases d.fs.write [] p with
  | none => exact fun hd => by simp at hd
  | some e =>
    simp only
    cases c.encode s with
    | none => exact fun hd => by simp at hd
    | some bs =>
      simp only
      cases hw : e.write bs p with
      | none => exact fun hd => by simp at hd
      | some fs' => exact fun _ => ⟨bs, rfl, write_read hw, by rw [set_self h, if_pos rfl]⟩

/-- A `write_text` that cannot encode its text. -/
theorem write_unencodable {d : Desk} {i : Nat} {p : Path} {c : Codec} {s : Str} (h : OnFile d i p c)
    (hd : d.answer (.write i s) = .failed .value) : (d.call (.write i s)).2.fs.read p = some [] := by
  obtain ⟨cache, h⟩ := h
  rw [Desk.answer, call_write h] at hd
  rw [call_write h]
  revert hd
  unfold TextFile.writeText
  simp only
  cases hw : d.fs.write [] p with
  | none => exact fun hd => by simp at hd
  | some e =>
    simp only
    cases c.encode s with
    | none => exact fun _ => write_read hw
    | some bs =>
      simp only
      cases e.write bs p with
      | none => exact fun hd => by simp at hd
      | some fs' => exact fun hd => by simp at hd

theorem after_append (d : Desk) (a b : List TextCall) : d.after (a ++ b) = (d.after a).after b := by
  induction a generalizing d with
  | nil => rfl
  | cons x a ih => exact ih _

theorem fresh_after {d : Desk} {i : Nat} {p : Path} {c : Codec} {bs : Bytes} {ops : List TextCall}
    (hi : d.files[i]? = some ⟨p, c, none⟩) (hf : d.fs.read p = some bs) (h : ∀ op ∈ ops, LeavesAlone d p op) :
    (d.after ops).answer (.values i) = .values (textValues (c.decode bs)) := by
  have hL : ∀ (ops : List TextCall) (d : Desk) (o : Option (List Str)), OnFile d i p c → Cached d i o →
      (∀ op ∈ ops, LeavesAlone d p op) → NoWrite i d ops := by
    intro ops
    induction ops with
    | nil => intros; trivial
    | cons op ops ih =>
      intro d o h1 h2 h3
      have h4 : ∀ s, op = .write i s → d.answer op ≠ .done := by
        rintro s rfl
        exact absurd h1 (h3 _ (List.mem_cons_self ..) c)
      obtain ⟨cache, h5⟩ := onFile_call h1 op
      exact ⟨h4, ih _ cache ⟨cache, h5⟩ ⟨p, c, h5⟩ fun op' h' => leavesAlone_call op op' (h3 op' (List.mem_cons_of_mem _ h'))⟩
  induction ops generalizing d with
  | nil => exact (answer_fresh hi hf).1
  | cons op ops ih =>
    have h' : ∀ op' ∈ ops, LeavesAlone (d.call op).2 p op' := fun op' hm =>
      leavesAlone_call op op' (h op' (List.mem_cons_of_mem _ hm))
    have hf' : (d.call op).2.fs.read p = some bs := (read_call (h op (List.mem_cons_self ..))).trans hf
    by_cases ho : op = .values i
    · subst ho
      have h1 := (answer_fresh hi hf).2
      exact answer_cached (d := (d.call (.values i)).2.after ops) (cached_after h1 (fun _ => by simp) (hL ops _ _ (onFile_call ⟨none, hi⟩ _) h1 h'))
    · have h1 : Cached (d.call op).2 i none := by
        refine cached_call ⟨p, c, hi⟩ op (fun e => absurd e ho) ?_
        rintro s rfl
        exact absurd ⟨none, hi⟩ (h _ (List.mem_cons_self ..) c)
      obtain ⟨p', c', h2⟩ := h1
      obtain ⟨cache, h3⟩ := onFile_call (d := d) (i := i) (p := p) (c := c) ⟨none, hi⟩ op
      have h4 := h2
      rw [h3] at h4
      cases h4
      exact ih h2 hf' h'

/-- **C112.**  Text collections in any encoding that reads what it writes, on a disk where others write too.  After a `write_text` that
succeeded, and anything after it that does not write to the same file, `read_text` returns what was written, with carriage returns
counted as newlines, and `get_values` returns its lines. -/
theorem written_is_read {d : Desk} {i : Nat} {p : Path} {c : Codec} (hi : OnFile d i p c) (hc : Faithful c)
    (before since : List TextCall) (contents : Str) (hd : (d.after before).answer (.write i contents) = .done)
    (hs : ∀ op ∈ since, LeavesAlone d p op) :
    let now := d.after (before ++ .write i contents :: since)
    now.answer (.text i) = .text (universalNewlines contents) ∧ now.answer (.values i) = .values (textValues contents) := by
  intro now
  have h0 := onFile_after hi before
  obtain ⟨bs, h1, h2, h3⟩ := write_done h0 hd
  have hs' : ∀ op ∈ since, LeavesAlone ((d.after before).call (.write i contents)).2 p op := by
    have : ∀ (ops : List TextCall) (d : Desk) (op : TextCall), LeavesAlone d p op → LeavesAlone (d.after ops) p op := by
      intro ops
      induction ops with
      | nil => exact fun _ _ h => h
      | cons o ops ih => exact fun d op h => ih _ _ (leavesAlone_call o op h)
    exact fun op hm => leavesAlone_call _ _ (this before d op (hs op hm))
  have hn : now = ((d.after before).call (.write i contents)).2.after since := after_append ..
  rw [hn, fresh_after h3 h2 hs', answer_text (onFile_after (onFile_call h0 _) since) ((read_after hs').trans h2), hc.again _ _ h1]
  exact ⟨rfl, rfl⟩

/-- **C112.**  After a `write_text` whose text cannot be encoded, and anything after it that does not write to the same file, the file
is empty: the old text is lost and `read_text` returns nothing. -/
theorem unencodable_empties {d : Desk} {i : Nat} {p : Path} {c : Codec} (hi : OnFile d i p c) (hc : Faithful c)
    (before since : List TextCall) (contents : Str) (hd : (d.after before).answer (.write i contents) = .failed .value)
    (hs : ∀ op ∈ since, LeavesAlone d p op) :
    (d.after (before ++ .write i contents :: since)).answer (.text i) = .text [] := by
  have h0 := onFile_after hi before
  have h2 := write_unencodable h0 hd
  have hs' : ∀ op ∈ since, LeavesAlone ((d.after before).call (.write i contents)).2 p op := by
    have : ∀ (ops : List TextCall) (d : Desk) (op : TextCall), LeavesAlone d p op → LeavesAlone (d.after ops) p op := by
      intro ops
      induction ops with
      | nil => exact fun _ _ h => h
      | cons o ops ih => exact fun d op h => ih _ _ (leavesAlone_call o op h)
    exact fun op hm => leavesAlone_call _ _ (this before d op (hs op hm))
  rw [after_append]
  show ((((d.after before).call (.write i contents)).2).after since).answer (.text i) = _
  rw [answer_text (onFile_after (onFile_call h0 _) since) ((read_after hs').trans h2), hc.empty]
  rfl

/-- **C112.**  Whatever `get_values` returned once, it returns until a `write_text` of the same collection succeeds: neither writing that
fails, nor other collections, nor others who write to the file make a difference. -/
theorem values_stay {d : Desk} {i : Nat} {p : Path} {c : Codec} (hi : OnFile d i p c) (before since : List TextCall) (l : List Str)
    (hl : (d.after before).answer (.values i) = .values l) (hn : NoWrite i ((d.after before).call (.values i)).2 since) :
    (d.after (before ++ .values i :: since)).answer (.values i) = .values l := by
  obtain ⟨cache, h0⟩ := onFile_after hi before
  have h1 : Cached ((d.after before).call (.values i)).2 i (some l) := by
    rw [Desk.answer, call_values h0] at hl
    rw [call_values h0]
    revert hl
    unfold TextFile.values
    cases cache with
    | some vs =>
      simp only
      intro hl
      cases hl
      exact ⟨p, c, by rw [set_self h0, if_pos rfl]⟩
    | none =>
      simp only
      cases (d.after before).fs.read p with
      | none => exact fun hl => by simp at hl
      | some bs =>
        simp only
        intro hl
        cases hl
        exact ⟨p, c, by rw [set_self h0, if_pos rfl]⟩
  rw [after_append]
  exact answer_cached (d := ((d.after before).call (.values i)).2.after since) (cached_after h1 (fun _ => by simp) hn)

/-- **C112.**  `write_text` succeeds exactly if the text can be encoded and the file can be opened for writing; if it can be opened and
the text cannot be encoded, it is a ValueError. -/
theorem write_answers {d : Desk} {i : Nat} {p : Path} {c : Codec} (hi : OnFile d i p c) (contents : Str) :
    (d.answer (.write i contents) = .done ↔ (c.encode contents).isSome ∧ (d.fs.write [] p).isSome) ∧
    (d.answer (.write i contents) = .failed .value ↔ c.encode contents = none ∧ (d.fs.write [] p).isSome) := by
  obtain ⟨cache, h⟩ := hi
  rw [Desk.answer, call_write h]
  unfold TextFile.writeText
  simp only
  cases hw : d.fs.write [] p with
  | none => simp
  | some e =>
    simp only
    cases c.encode contents with
    | none => simp
    | some bs =>
      obtain ⟨fs', h2⟩ := write_again (c' := bs) (write_read hw)
      simp [h2]

/-- UTF-8 is such an encoding. -/
theorem utf8_faithful : Faithful .utf8 where
  again s bs h := by
    cases h
    have := text_decoded s []
    rw [List.append_nil] at this
    exact this.trans (List.append_nil s)
  empty := rfl

theorem byte_again (c : Char) (h : c.toNat < 256) : Char.ofNat c.toNat.toUInt8.toNat = c := by
  have : c.toNat.toUInt8.toNat = c.toNat := by
    simp only [Nat.toUInt8_eq, UInt8.toNat_ofNat']
    omega
  rw [this, Char.ofNat_toNat]

/-- So are ASCII and Latin-1. -/
theorem ascii_faithful : Faithful .ascii where
  again s bs h := by
    simp only [Codec.ascii] at h ⊢
    split at h
    · rename_i ha
      cases h
      rw [List.all_eq_true] at ha
      rw [List.filter_eq_self.2, List.map_map]
      · conv => rhs; rw [← List.map_id s]
        refine List.map_congr_left fun c hc => ?_
        have := ha c hc
        simp only [decide_eq_true_eq] at this
        exact byte_again c (by omega)
      · intro b hb
        obtain ⟨c, hc, rfl⟩ := List.mem_map.1 hb
        have := ha c hc
        simp only [decide_eq_true_eq] at this ⊢
        simp only [Nat.toUInt8_eq, UInt8.toNat_ofNat']
        omega
    · simp at h
  empty := rfl

theorem latin1_faithful : Faithful .latin1 where
  again s bs h := by
    simp only [Codec.latin1] at h ⊢
    split at h
    · rename_i ha
      cases h
      rw [List.all_eq_true] at ha
      rw [List.map_map]
      conv => rhs; rw [← List.map_id s]
      refine List.map_congr_left fun c hc => ?_
      have := ha c hc
      simp only [decide_eq_true_eq] at this
      exact byte_again c (by omega)
    · simp at h
  empty := rfl

/-! ### The collections of a manager -/

theorem setEntry_twice {α : Type} (es : List (Str × FTree α)) (m : Str) (x y : FTree α) :
    FTree.setEntry (FTree.setEntry es m x) m y = FTree.setEntry es m y := by
  induction es with
  | nil => simp [FTree.setEntry]
  | cons q es ih =>
    obtain ⟨k, z⟩ := q
    simp only [FTree.setEntry]
    split
    · rename_i h; subst h; simp [FTree.setEntry]
    · rename_i h; simp only [FTree.setEntry, if_neg h, ih]

theorem twice {α : Type} (fs : FTree α) (p : Path) (a b : α) : (fs.write a p).bind (fun e => e.write b p) = fs.write b p := by
  induction p generalizing fs with
  | nil => cases fs <;> rfl
  | cons m p ih =>
    cases fs with
    | broken => rfl
    | file _ => rfl
    | dir es =>
      simp only [FTree.write]
      cases FTree.entry es m with
      | none =>
        simp only
        split
        · rename_i he
          simp only [List.isEmpty_iff] at he
          subst he
          simp only [Option.bind_some, FTree.write, entry_setEntry, Option.map_some, setEntry_twice]
        · rfl
      | some x =>
        have := ih x
        cases hw : x.write a p with
        | none => rw [hw] at this; simp only [Option.bind_none] at this; simp [← this, hw]
        | some e =>
          rw [hw, Option.bind_some] at this
          simp only [hw]
          simp only [Option.map_some, Option.bind_some, FTree.write, entry_setEntry, this]
          cases x.write b p with
          | none => rfl
          | some y => simp only [Option.map_some, setEntry_twice]

theorem texts_setEntry (es : List (Str × FTree Bytes)) (m : Str) (x : FTree Bytes) :
    asTexts.entries (FTree.setEntry es m x) = FTree.setEntry (asTexts.entries es) m (asTexts m x) := by
  induction es with
  | nil => rfl
  | cons q es ih =>
    obtain ⟨k, y⟩ := q
    simp only [FTree.setEntry, asTexts.entries]
    split
    · rename_i h; subst h; rfl
    · simp only [asTexts.entries, ih]

theorem texts_write (fs : FTree Bytes) (n : Str) (p : Path) (bs : Bytes) (hp : isStructured ((n :: p).getLastD []) = false) :
    (asTexts n fs).write (decodeIgnore bs) p = (fs.write bs p).map (asTexts n) := by
  induction p generalizing fs n with
  | nil =>
    have hn : isStructured n = false := hp
    cases fs with
    | dir es => rfl
    | broken => rfl
    | file b0 => simp [asTexts, asText, hn, FTree.write]
  | cons m p ih =>
    cases fs with
    | broken => rfl
    | file b0 =>
      have : (∃ s, asTexts n (.file b0) = .file s) ∨ asTexts n (.file b0) = .broken := by
        simp only [asTexts, asText]
        split
        · cases decodeStrict b0 with
          | none => exact .inr rfl
          | some s => exact .inl ⟨s, rfl⟩
        · exact .inl ⟨_, rfl⟩
      rcases this with ⟨s, e⟩ | e <;> rw [e] <;> rfl
    | dir es =>
      have hp' : isStructured ((m :: p).getLastD []) = false := hp
      simp only [asTexts, FTree.write, texts_entry]
      cases FTree.entry es m with
      | none =>
        simp only [Option.map_none]
        split
        · rename_i he
          simp only [List.isEmpty_iff] at he
          subst he
          have hm : isStructured m = false := hp'
          simp only [Option.map_some, asTexts, texts_setEntry, asText, hm]
          rfl
        · rfl
      | some x =>
        simp only [Option.map_some, ih x m hp']
        cases x.write bs p with
        | none => rfl
        | some y => simp only [Option.map_some, asTexts, texts_setEntry]

theorem worksOn_set {R : Type} {s : Mgr R} {d : Desk} (h : WorksOn s d) {i : Nat} {f : TextFile} (hi : d.files[i]? = some f)
    (fs : FTree Bytes) (cache : Option (List Str)) :
    WorksOn { s with fs := texts fs, heap := s.heap.set i ⟨f.path, cache⟩ } ⟨fs, d.files.set i { f with cache := cache }⟩ := by
  refine ⟨rfl, ?_, ?_⟩
  · show s.heap.set i _ = (d.files.set i _).map _
    rw [h.2.1, List.map_set]
  · intro g hg
    rcases List.mem_or_eq_of_mem_set hg with hg | rfl
    · exact h.2.2 g hg
    · exact h.2.2 f (List.mem_of_getElem? hi)

/-- **C112.**  The text collections of a wildcard manager (C33) are those in UTF-8: `get_values` answers the same. -/
theorem manager_values {R : Type} {s : Mgr R} {d : Desk} (h : WorksOn s d) (i : Nat) :
    match Mgr.textGetValues i s with
    | .ok l s' => d.answer (.values i) = .values l ∧ WorksOn s' (d.call (.values i)).2
    | .err e s' => d.answer (.values i) = .failed e ∧ WorksOn s' (d.call (.values i)).2
    | .fuel => False := by
  unfold Mgr.textGetValues
  rw [h.2.1, List.getElem?_map]
  cases hi : d.files[i]? with
  | none =>
    simp only [Option.map_none, Desk.answer, Desk.call, hi]
    exact ⟨trivial, h⟩
  | some f =>
    have hf := h.2.2 f (List.mem_of_getElem? hi)
    have hback : d.files.set i f = d.files := by
      apply List.ext_getElem?
      intro j
      by_cases hj : i = j
      · subst hj; rw [set_self hi, if_pos rfl, hi]
      · rw [List.getElem?_set_ne hj]
    simp only [Option.map_some, Desk.answer, call_values hi]
    unfold TextFile.values
    cases hc : f.cache with
    | some vs => simp only [hback]; exact ⟨trivial, h⟩
    | none =>
      simp only
      have hr : s.fs.read f.path = (d.fs.read f.path).map decodeIgnore := by
        rw [h.1, ← bytes_read d.fs f.path hf.2]; rfl
      rw [hr]
      cases d.fs.read f.path with
      | none => simp only [Option.map_none, hback]; exact ⟨trivial, h⟩
      | some bs =>
        have := worksOn_set h hi d.fs (some (textValues (decodeIgnore bs)))
        rw [← h.1] at this
        simp only [Option.map_some, hf.1]
        exact ⟨rfl, by rw [← h.2.1]; have e := hf.1; cases f; cases e; exact this⟩

/-- **C112.**  And so does `write_text`. -/
theorem manager_write {R : Type} {s : Mgr R} {d : Desk} (h : WorksOn s d) (i : Nat) (contents : Str) :
    match Mgr.textWrite i contents s with
    | .ok _ s' => d.answer (.write i contents) = .done ∧ WorksOn s' (d.call (.write i contents)).2
    | .err e s' => d.answer (.write i contents) = .failed e ∧ WorksOn s' (d.call (.write i contents)).2
    | .fuel => False := by
  unfold Mgr.textWrite
  rw [h.2.1, List.getElem?_map]
  cases hi : d.files[i]? with
  | none =>
    simp only [Option.map_none, Desk.answer, Desk.call, hi]
    exact ⟨trivial, h⟩
  | some f =>
    have hf := h.2.2 f (List.mem_of_getElem? hi)
    have hl : ([] :: f.path).getLastD [] = f.path.getLastD ([] : Str) := by cases f.path <;> rfl
    have hback : d.files.set i f = d.files := by
      apply List.ext_getElem?
      intro j
      by_cases hj : i = j
      · subst hj; rw [set_self hi, if_pos rfl, hi]
      · rw [List.getElem?_set_ne hj]
    have hd : decodeIgnore (encodeUtf8 contents) = contents := utf8_faithful.again contents _ rfl
    have hw := texts_write d.fs [] f.path (encodeUtf8 contents) (by rw [hl]; exact hf.2)
    rw [hd] at hw
    simp only [Option.map_some, Desk.answer, call_write hi, h.1]
    have hw' : (texts d.fs).write contents f.path = (d.fs.write (encodeUtf8 contents) f.path).map (asTexts []) := hw
    rw [hw']
    unfold TextFile.writeText
    have hx := twice d.fs f.path [] (encodeUtf8 contents)
    cases hw1 : d.fs.write [] f.path with
    | none =>
      rw [hw1] at hx
      simp only [Option.bind_none] at hx
      rw [← hx]
      simp only [Option.map_none, hback]
      exact ⟨trivial, h⟩
    | some e =>
      rw [hw1, Option.bind_some] at hx
      obtain ⟨fs', h2⟩ := write_again (c' := encodeUtf8 contents) (write_read hw1)
      rw [h2] at hx
      rw [← hx]
      simp only [Option.map_some, hf.1, Codec.utf8, h2]
      have := worksOn_set h hi fs' none
      exact ⟨trivial, by rw [← h.2.1]; have e := hf.1; cases f; cases e; exact this⟩

/-! ### Cases -/

/-- One file with two collections, an ASCII one and a UTF-8 one. -/
def encodingDesk : Desk :=
  ⟨.dir [(c!"x.txt", .file (encodeUtf8 c!"red\nblue"))], [⟨[c!"x.txt"], .ascii, none⟩, ⟨[c!"x.txt"], .utf8, none⟩]⟩

example : OnFile encodingDesk 0 [c!"x.txt"] .ascii ∧ OnFile encodingDesk 1 [c!"x.txt"] .utf8 := ⟨⟨none, rfl⟩, ⟨none, rfl⟩⟩

/-- The ASCII collection reads its values, then fails to write `café`: the file is empty, but the values are still returned; the other
collection finds nothing. -/
example : (encodingDesk.after [.values 0]).answer (.write 0 c!"café") = .failed .value ∧
    (encodingDesk.after [.values 0, .write 0 c!"café"]).answer (.text 0) = .text [] ∧
    (encodingDesk.after [.values 0, .write 0 c!"café"]).answer (.values 0) = .values [c!"red", c!"blue"] ∧
    (encodingDesk.after [.values 0, .write 0 c!"café"]).answer (.values 1) = .values [] := by decide +kernel

example : NoWrite 0 ((encodingDesk.after []).call (.values 0)).2 [.write 0 c!"café", .write 1 c!"green", .edit [c!"x.txt"] []] :=
  ⟨fun _ _ => by decide +kernel, (fun _ h => nomatch h), (fun _ h => nomatch h), trivial⟩

/-- Written in UTF-8, read in both encodings. -/
example : (encodingDesk.after [.values 0, .write 1 c!"café\r\n# no\n tea "]).answer (.text 1) = .text c!"café\n# no\n tea " ∧
    (encodingDesk.after [.values 0, .write 1 c!"café\r\n# no\n tea "]).answer (.values 1) = .values [c!"café", c!"tea"] ∧
    (encodingDesk.after [.values 0, .write 1 c!"café\r\n# no\n tea "]).answer (.values 0) = .values [c!"red", c!"blue"] ∧
    (encodingDesk.after [.write 1 c!"café\r\n# no\n tea "]).answer (.values 0) = .values [c!"caf", c!"tea"] := by decide +kernel

/-- A manager with the UTF-8 collection. -/
example : WorksOn ({ newMgr (.dir [(c!"x.txt", .file c!"red\nblue")]) () with heap := [⟨[c!"x.txt"], none⟩] })
    ⟨.dir [(c!"x.txt", .file (encodeUtf8 c!"red\nblue"))], [⟨[c!"x.txt"], .utf8, none⟩]⟩ :=
  ⟨by
    show FTree.dir _ = texts (.dir _)
    simp only [texts, asTexts, asTexts.entries, asText]
    rw [if_neg (by decide), show decodeIgnore (encodeUtf8 c!"red\nblue") = c!"red\nblue" by decide +kernel], rfl, by
    intro f hf
    simp only [List.mem_singleton] at hf
    subst hf
    exact ⟨rfl, by decide⟩⟩

end Verif.Props
