import Verif.Model.Devices

/-! # Lemmas about the writers -/

namespace Verif

open Spec Model

theorem pushLoop_spec (full : Bool) (as : List Answer) (got : List (List UInt8)) (bs : List UInt8) :
    ∃ pieces, (pushLoop full as got bs).1.got = got ++ pieces ∧
      pieces.flatten ++ (pushLoop full as got bs).2.1 = bs ∧
      ((pushLoop full as got bs).2.2 = true → (pushLoop full as got bs).2.1 = []) ∧
      (pushLoop full as got bs).1.full = full ∧
      (∀ a ∈ (pushLoop full as got bs).1.answers, a ∈ as) ∧
      (full = false → (∀ a ∈ as, a ≠ .refuse ∧ a ≠ .accept 0) → (pushLoop full as got bs).2.2 = true) := by
  fun_induction pushLoop full as got bs with
  | case1 => exact ⟨[], by simp⟩
  | case2 got b bs h => exact ⟨[], by simp [h]⟩
  | case3 got b bs h => exact ⟨[b :: bs], by simp⟩
  | case4 as got b bs ih =>
    obtain ⟨p, h1, h2, h3, h4, h5, h6⟩ := ih
    exact ⟨p, h1, h2, h3, h4, fun a ha => List.mem_cons_of_mem _ (h5 a ha),
      fun hf ha => h6 hf fun a h => ha a (List.mem_cons_of_mem _ h)⟩
  | case5 as got b bs =>
    refine ⟨[], by simp, by simp, by simp, rfl, fun a h => List.mem_cons_of_mem _ h, fun _ ha => ?_⟩
    exact absurd rfl (ha _ List.mem_cons_self).1
  | case6 as got b bs =>
    refine ⟨[], by simp, by simp, by simp, rfl, fun a h => List.mem_cons_of_mem _ h, fun _ ha => ?_⟩
    exact absurd rfl (ha _ List.mem_cons_self).2
  | case7 n as got b bs ih =>
    obtain ⟨p, h1, h2, h3, h4, h5, h6⟩ := ih
    refine ⟨(b :: bs.take n) :: p, by rw [h1]; simp, ?_, h3, h4, fun a ha => List.mem_cons_of_mem _ (h5 a ha),
      fun hf ha => h6 hf fun a h => ha a (List.mem_cons_of_mem _ h)⟩
    simp only [List.flatten_cons, List.append_assoc, h2]
    simp

theorem push_spec (d : Device) (bs : List UInt8) :
    ∃ pieces, (push d bs).1.got = d.got ++ pieces ∧ pieces.flatten ++ (push d bs).2.1 = bs ∧
      ((push d bs).2.2 = true → (push d bs).2.1 = []) ∧
      (d.Willing → (push d bs).1.Willing ∧ (push d bs).2.2 = true) := by
  obtain ⟨p, h1, h2, h3, h4, h5, h6⟩ := pushLoop_spec d.full d.answers d.got bs
  refine ⟨p, h1, h2, h3, fun h => ⟨⟨?_, fun a ha => h.2 a (h5 a ha)⟩, h6 h.1 h.2⟩⟩
  exact h4.trans h.1

/-- What a write does to a writer. -/
def Moves (w : Writer) (bs : List UInt8) (r : Writer × Bool) : Prop :=
  ∃ pieces : List (List UInt8), r.1.dev.got = w.dev.got ++ pieces ∧
    pieces.flatten ++ r.1.buf <+: w.buf ++ bs ∧
    (r.2 = true → pieces.flatten ++ r.1.buf = w.buf ++ bs) ∧
    (w.dev.Willing → r.1.dev.Willing ∧ r.2 = true)

theorem moves_refl (w : Writer) (b : Bool) (bs : List UInt8) (h : b = true → bs = [])
    (hw : w.dev.Willing → b = true) : Moves w bs (w, b) :=
  ⟨[], by simp, by simp, fun hb => by simp [h hb], fun x => ⟨x, hw x⟩⟩

theorem moves_buffer (w : Writer) (bs : List UInt8) : Moves w bs (⟨w.dev, w.buf ++ bs⟩, true) :=
  ⟨[], by simp, by simp, fun _ => by simp, fun x => ⟨x, rfl⟩⟩

theorem moves_trans {w : Writer} {bs cs : List UInt8} {r s : Writer × Bool} (h1 : Moves w bs r) (hr : r.2 = true)
    (h2 : Moves r.1 cs s) : Moves w (bs ++ cs) s := by
  obtain ⟨p, a1, a2, a3, a4⟩ := h1
  obtain ⟨q, b1, b2, b3, b4⟩ := h2
  have e := a3 hr
  refine ⟨p ++ q, by rw [b1, a1, List.append_assoc], ?_, fun hs => ?_, fun x => b4 (a4 x).1⟩
  · rw [List.flatten_append, List.append_assoc, ← List.append_assoc w.buf, ← e, List.append_assoc p.flatten]
    exact (List.prefix_append_right_inj _).mpr b2
  · rw [List.flatten_append, List.append_assoc, b3 hs, ← List.append_assoc, e, List.append_assoc]

theorem moves_fail {w : Writer} {bs cs : List UInt8} {r : Writer × Bool} (h1 : Moves w bs r) (hr : r.2 = false) :
    Moves w (bs ++ cs) (r.1, false) := by
  obtain ⟨p, a1, a2, a3, a4⟩ := h1
  refine ⟨p, a1, ?_, by simp, fun x => ?_⟩
  · exact a2.trans (by rw [← List.append_assoc]; exact List.prefix_append _ _)
  · exact absurd (a4 x).2 (by simp [hr])

theorem moves_flush (w : Writer) : Moves w [] (flushBuf w) := by
  obtain ⟨p, h1, h2, h3, h4⟩ := push_spec w.dev w.buf
  refine ⟨p, h1, ?_, fun _ => ?_, h4⟩
  · simp only [flushBuf]; rw [h2]; simp
  · simp only [flushBuf]; rw [h2]; simp

theorem flushBuf_empty (w : Writer) (h : (flushBuf w).2 = true) : (flushBuf w).1.buf = [] := by
  obtain ⟨p, h1, h2, h3, h4⟩ := push_spec w.dev w.buf
  exact h3 h

theorem moves_push (w : Writer) (bs : List UInt8) (h : w.buf = [] ∨ bs = []) :
    Moves w bs (⟨(push w.dev bs).1, w.buf⟩, (push w.dev bs).2.2) := by
  obtain ⟨p, h1, h2, h3, h4⟩ := push_spec w.dev bs
  refine ⟨p, h1, ?_, fun hb => ?_, h4⟩
  · rcases h with h | h
    · simp only [h, List.append_nil, List.nil_append]
      exact ⟨_, h2⟩
    · subst h
      have : p.flatten = [] := (List.append_eq_nil_iff.mp h2).1
      simp [this]
  · have e := h3 hb
    rw [e, List.append_nil] at h2
    rcases h with h | h
    · simp [h, h2]
    · subst h; simp [h2]

theorem moves_buf (cap : Nat) (w : Writer) (bs : List UInt8) : Moves w bs (bufWriteAll cap w bs) := by
  unfold bufWriteAll
  split
  · exact moves_buffer w bs
  · rename_i hlt
    by_cases hgt : bs.length > cap - w.buf.length
    · simp only [hgt, if_true]
      by_cases hf : (flushBuf w).2 = false
      · simp only [hf, if_true]
        simpa using moves_fail (cs := bs) (moves_flush w) hf
      · have hf' : (flushBuf w).2 = true := by simpa using hf
        simp only [hf', Bool.true_eq_false, if_false]
        have hb := flushBuf_empty w hf'
        split
        · have := moves_trans (moves_flush w) hf' (moves_push (flushBuf w).1 bs (.inl hb))
          simpa using this
        · have := moves_trans (moves_flush w) hf' (moves_buffer (flushBuf w).1 bs)
          simpa using this
    · simp only [hgt, if_false, Bool.true_eq_false]
      split
      · apply moves_push
        by_cases hb : bs = []
        · exact .inr hb
        · left
          have := List.length_pos_of_ne_nil hb
          apply List.eq_nil_of_length_eq_zero
          omega
      · exact moves_buffer w bs

theorem lineTail_suffix (bs : List UInt8) : ∃ p, p ++ lineTail bs = bs := by
  refine ⟨(bs.reverse.dropWhile fun c => decide (c ≠ 10)).reverse, ?_⟩
  rw [lineTail, ← List.reverse_append, List.takeWhile_append_dropWhile, List.reverse_reverse]

theorem lineHead_append (bs : List UInt8) : lineHead bs ++ lineTail bs = bs := by
  obtain ⟨p, h⟩ := lineTail_suffix bs
  have : bs.length = p.length + (lineTail bs).length := by conv_lhs => rw [← h]; simp
  have e : lineHead bs = p := by
    rw [lineHead, this, Nat.add_sub_cancel]
    conv_lhs => rw [← h]
    simp
  rw [e, h]

theorem lineTail_no_newline (bs : List UInt8) : (10 : UInt8) ∉ lineTail bs := by
  intro h
  rw [lineTail, List.mem_reverse] at h
  have : ∀ (l : List UInt8), (10 : UInt8) ∉ l.takeWhile fun c => decide (c ≠ 10) := by
    intro l
    induction l with
    | nil => simp
    | cons a l ih =>
      rw [List.takeWhile_cons]
      split
      · rename_i ha
        intro hm
        rcases List.mem_cons.mp hm with hm | hm
        · subst hm; simp at ha
        · exact ih hm
      · simp
  exact this _ h

theorem moves_line (cap : Nat) (w : Writer) (bs : List UInt8) : Moves w bs (lineWriteAll cap w bs) := by
  unfold lineWriteAll
  split
  · unfold flushIfCompletedLine
    split
    · by_cases hf : (flushBuf w).2 = false
      · simp only [hf, if_true]
        simpa using moves_fail (cs := bs) (moves_flush w) hf
      · have hf' : (flushBuf w).2 = true := by simpa using hf
        simp only [hf', Bool.true_eq_false, if_false]
        simpa using moves_trans (moves_flush w) hf' (moves_buf cap (flushBuf w).1 bs)
    · simpa using moves_buf cap w bs
  · -- at least one line
    have key : ∀ f : Writer × Bool, Moves w (lineHead bs) f →
        Moves w bs (if f.2 = false then (f.1, false) else bufWriteAll cap f.1 (lineTail bs)) := by
      intro f hm
      by_cases hf : f.2 = false
      · simp only [hf, if_true]
        have := moves_fail (cs := lineTail bs) hm hf
        rwa [lineHead_append] at this
      · have hf' : f.2 = true := by simpa using hf
        simp only [hf', Bool.true_eq_false, if_false]
        have := moves_trans hm hf' (moves_buf cap f.1 (lineTail bs))
        rwa [lineHead_append] at this
    apply key
    split
    · rename_i hb
      exact moves_push w _ (.inl hb)
    · by_cases hg : (bufWriteAll cap w (lineHead bs)).2 = false
      · simp only [hg, if_true]
        simpa using moves_fail (cs := []) (moves_buf cap w (lineHead bs)) hg
      · have hg' : (bufWriteAll cap w (lineHead bs)).2 = true := by simpa using hg
        simp only [hg', Bool.true_eq_false, if_false]
        simpa using moves_trans (moves_buf cap w (lineHead bs)) hg' (moves_flush _)

/-- The condition under which the buffer of a file stays empty. -/
def Sink.Ok (k : Sink) (w : Writer) : Prop := k = .file → w.buf = []

theorem moves_writeAll (k : Sink) (w : Writer) (bs : List UInt8) (h : Sink.Ok k w) :
    Moves w bs (k.writeAll w bs) ∧ Sink.Ok k (k.writeAll w bs).1 := by
  cases k with
  | file => exact ⟨moves_push w bs (.inl (h rfl)), fun _ => h rfl⟩
  | stdout cap => exact ⟨moves_line cap w bs, by rintro ⟨⟩⟩
  | buffered cap => exact ⟨moves_buf cap w bs, by rintro ⟨⟩⟩

theorem moves_writeChunks (k : Sink) (cs : List (List UInt8)) :
    ∀ w : Writer, Sink.Ok k w → Moves w cs.flatten (k.writeChunks w cs) ∧ Sink.Ok k (k.writeChunks w cs).1 := by
  induction cs with
  | nil => intro w h; exact ⟨moves_refl w true [] (fun _ => rfl) (fun _ => rfl), h⟩
  | cons c cs ih =>
    intro w h
    obtain ⟨m, o⟩ := moves_writeAll k w c h
    simp only [Sink.writeChunks, List.flatten_cons]
    by_cases hf : (k.writeAll w c).2 = false
    · simp only [hf, if_true]
      exact ⟨moves_fail m hf, o⟩
    · have hf' : (k.writeAll w c).2 = true := by simpa using hf
      simp only [hf', Bool.true_eq_false, if_false]
      obtain ⟨m2, o2⟩ := ih _ o
      exact ⟨moves_trans m hf' m2, o2⟩

theorem moves_sinkFlush (k : Sink) (w : Writer) (h : Sink.Ok k w) :
    Moves w [] (k.flush w) ∧ Sink.Ok k (k.flush w).1 ∧ ((k.flush w).2 = true → (k.flush w).1.buf = []) := by
  cases k with
  | file => exact ⟨moves_refl w true [] (fun _ => rfl) (fun _ => rfl), h, fun _ => h rfl⟩
  | stdout cap => exact ⟨moves_flush w, by rintro ⟨⟩, flushBuf_empty w⟩
  | buffered cap => exact ⟨moves_flush w, by rintro ⟨⟩, flushBuf_empty w⟩

theorem close_spec (k : Sink) (w : Writer) (h : Sink.Ok k w) :
    ∃ pieces, (k.close w).got = w.dev.got ++ pieces ∧ pieces.flatten <+: w.buf ∧
      (w.dev.Willing → pieces.flatten = w.buf) := by
  cases k with
  | file => exact ⟨[], by simp [Sink.close], by simp, fun _ => by simp [h rfl]⟩
  | stdout cap =>
    obtain ⟨p, h1, h2, h3, h4⟩ := push_spec w.dev w.buf
    refine ⟨p, h1, ⟨_, h2⟩, fun hw => ?_⟩
    rw [h3 (h4 hw).2, List.append_nil] at h2
    exact h2
  | buffered cap =>
    obtain ⟨p, h1, h2, h3, h4⟩ := push_spec w.dev w.buf
    refine ⟨p, h1, ⟨_, h2⟩, fun hw => ?_⟩
    rw [h3 (h4 hw).2, List.append_nil] at h2
    exact h2

/-- The run up to the point where the writer is closed. -/
theorem runOn_cases {α : Type} (k : Sink) (fl : Bool) (prog : List (List UInt8) × Res α) (d : Device) :
    ∃ (w : Writer) (ok : Bool), Sink.Ok k w ∧ Moves ⟨d, []⟩ prog.1.flatten (w, ok) ∧
      (runOn k fl prog d).1 = k.close w ∧
      (ok = false → (runOn k fl prog d).2 = .error .unwrap) ∧
      (ok = true → (runOn k fl prog d).2 = prog.2) ∧
      (ok = true → fl = true → (∃ a, prog.2 = .ok a) → w.buf = []) ∧
      (ok = true → (fl = false ∨ ∃ e, prog.2 = .error e) → (w, true) = k.writeChunks ⟨d, []⟩ prog.1) := by
  have h0 : Sink.Ok k ⟨d, []⟩ := fun _ => rfl
  obtain ⟨m, o⟩ := moves_writeChunks k prog.1 ⟨d, []⟩ h0
  unfold runOn
  by_cases hs : (k.writeChunks ⟨d, []⟩ prog.1).2 = false
  · refine ⟨(k.writeChunks ⟨d, []⟩ prog.1).1, false, o, ?_, ?_⟩
    · rw [← hs]; exact m
    · simp [hs]
  · have hs' : (k.writeChunks ⟨d, []⟩ prog.1).2 = true := by simpa using hs
    have hpair : ((k.writeChunks ⟨d, []⟩ prog.1).1, true) = k.writeChunks ⟨d, []⟩ prog.1 := by rw [← hs']
    cases hp : prog.2 with
    | error e =>
      refine ⟨(k.writeChunks ⟨d, []⟩ prog.1).1, true, o, hpair ▸ m, ?_⟩
      simp [hs', hpair]
    | ok a =>
      cases fl with
      | false =>
        refine ⟨(k.writeChunks ⟨d, []⟩ prog.1).1, true, o, hpair ▸ m, ?_⟩
        simp [hs', hpair]
      | true =>
        obtain ⟨f1, f2, f3⟩ := moves_sinkFlush k (k.writeChunks ⟨d, []⟩ prog.1).1 o
        have mm := moves_trans m hs' f1
        rw [List.append_nil] at mm
        by_cases hf : (k.flush (k.writeChunks ⟨d, []⟩ prog.1).1).2 = false
        · refine ⟨(k.flush (k.writeChunks ⟨d, []⟩ prog.1).1).1, false, f2, ?_, ?_⟩
          · rw [← hf]; exact mm
          · simp [hs', hf]
        · have hf' : (k.flush (k.writeChunks ⟨d, []⟩ prog.1).1).2 = true := by simpa using hf
          refine ⟨(k.flush (k.writeChunks ⟨d, []⟩ prog.1).1).1, true, f2, ?_, ?_⟩
          · rw [← hf']; exact mm
          · simp [hs', hf', f3 hf']

/-- The pieces taken in the whole run. -/
theorem runOn_pieces {α : Type} (k : Sink) (fl : Bool) (prog : List (List UInt8) × Res α) (d : Device) :
    ∃ pieces, (runOn k fl prog d).1.got = d.got ++ pieces ∧ pieces.flatten <+: prog.1.flatten ∧
      (d.Willing → pieces.flatten = prog.1.flatten ∧ (runOn k fl prog d).2 = prog.2) ∧
      (∀ a, (runOn k fl prog d).2 = .ok a → prog.2 = .ok a ∧ ((k = .file ∨ fl = true) → pieces.flatten = prog.1.flatten)) ∧
      (∀ e, (runOn k fl prog d).2 = .error e → prog.2 = .error e ∨ (e = .unwrap ∧ ¬ d.Willing)) := by
  obtain ⟨w, ok, o, ⟨p, m1, m2, m3, m4⟩, c1, c2, c3, c4, -⟩ := runOn_cases k fl prog d
  obtain ⟨q, q1, q2, q3⟩ := close_spec k w o
  simp only [List.nil_append] at m1 m2 m3 m4
  refine ⟨p ++ q, ?_, ?_, ?_, ?_, ?_⟩
  · rw [c1, q1, m1, List.append_assoc]
  · rw [List.flatten_append]
    exact ((List.prefix_append_right_inj _).mpr q2).trans m2
  · intro hw
    obtain ⟨hw', hok⟩ := m4 hw
    rw [List.flatten_append, q3 hw', m3 hok]
    exact ⟨rfl, c3 hok⟩
  · intro a ha
    cases ok with
    | false => rw [c2 rfl] at ha; cases ha
    | true =>
      rw [c3 rfl] at ha
      refine ⟨ha, fun hk => ?_⟩
      have hb : w.buf = [] := by
        rcases hk with hk | hk
        · exact o hk
        · exact c4 rfl hk ⟨a, ha⟩
      have e := m3 rfl
      rw [hb, List.append_nil] at e
      rw [hb] at q2
      rw [List.flatten_append, List.prefix_nil.mp q2, List.append_nil, e]
  · intro e he
    cases ok with
    | false =>
      rw [c2 rfl] at he
      injection he with he
      exact .inr ⟨he.symm, fun hw => by simpa using (m4 hw).2⟩
    | true => rw [c3 rfl] at he; exact .inl he

theorem onlyPrefixes_runOn {α : Type} (k : Sink) (fl : Bool) (prog : List (List UInt8) × Res α) (d : Device)
    (out : List UInt8) (h : prog.1.flatten = out) : OnlyPrefixes d out (runOn k fl prog d) := by
  obtain ⟨p, h1, h2, -⟩ := runOn_pieces k fl prog d
  refine ⟨p, h1, fun n => ?_⟩
  rw [← h]
  refine List.IsPrefix.trans ?_ h2
  conv_rhs => rw [← List.take_append_drop n p, List.flatten_append]
  exact List.prefix_append _ _

theorem complete_runOn {α : Type} (k : Sink) (fl : Bool) (prog : List (List UInt8) × Res α) (d : Device)
    (out : List UInt8 × Res α) (h : prog.1.flatten = out.1) (h2 : prog.2 = out.2) (hk : k = .file ∨ fl = true) :
    Complete d out (runOn k fl prog d) := by
  obtain ⟨p, h1, -, -, h3, h4⟩ := runOn_pieces k fl prog d
  refine ⟨fun a ha => ?_, fun e he => ?_⟩
  · obtain ⟨x, y⟩ := h3 a ha
    refine ⟨h2 ▸ x, ?_⟩
    rw [Device.content, h1, List.flatten_append, y hk, h]
    rfl
  · rw [← h2]; exact h4 e he

theorem willing_runOn {α : Type} (k : Sink) (fl : Bool) (prog : List (List UInt8) × Res α) (d : Device)
    (out : List UInt8 × Res α) (h : prog.1.flatten = out.1) (h2 : prog.2 = out.2) (hw : d.Willing) :
    (runOn k fl prog d).1.content = d.content ++ out.1 ∧ (runOn k fl prog d).2 = out.2 := by
  obtain ⟨p, h1, -, h3, -⟩ := runOn_pieces k fl prog d
  obtain ⟨x, y⟩ := h3 hw
  refine ⟨?_, h2 ▸ y⟩
  rw [Device.content, h1, List.flatten_append, x, h]
  rfl

/-! ### what can wait in the buffer -/

theorem bufWriteAll_cap (cap : Nat) (w : Writer) (bs : List UInt8) (hw : w.buf.length ≤ cap)
    (h : (bufWriteAll cap w bs).2 = true) :
    (bufWriteAll cap w bs).1.buf.length ≤ cap ∧
      ∀ c ∈ (bufWriteAll cap w bs).1.buf, c ∈ w.buf ∨ c ∈ bs := by
  unfold bufWriteAll at h ⊢
  split
  · refine ⟨by simp; omega, fun c hc => by simpa using hc⟩
  · rename_i hlt
    simp only [hlt, if_false] at h
    by_cases hgt : bs.length > cap - w.buf.length
    · simp only [hgt, if_true] at h ⊢
      by_cases hf : (flushBuf w).2 = false
      · simp [hf] at h
      · have hf' : (flushBuf w).2 = true := by simpa using hf
        have hb := flushBuf_empty w hf'
        simp only [hf', Bool.true_eq_false, if_false] at h ⊢
        split
        · simp [hb]
        · rename_i hge
          simp only [hb, List.nil_append]
          exact ⟨by omega, fun c hc => .inr hc⟩
    · simp only [hgt, if_false, Bool.true_eq_false] at h ⊢
      split
      · exact ⟨hw, fun c hc => .inl hc⟩
      · refine ⟨by simp; omega, fun c hc => by simpa using hc⟩

theorem lineHead_nil_mem (bs : List UInt8) (h : lineHead bs = []) : (10 : UInt8) ∉ bs := by
  have := lineHead_append bs
  rw [h, List.nil_append] at this
  rw [← this]
  exact lineTail_no_newline bs

theorem lineWriteAll_cap (cap : Nat) (w : Writer) (bs : List UInt8) (hw : w.buf.length ≤ cap)
    (hn : (10 : UInt8) ∉ w.buf) (h : (lineWriteAll cap w bs).2 = true) :
    (lineWriteAll cap w bs).1.buf.length ≤ cap ∧ (10 : UInt8) ∉ (lineWriteAll cap w bs).1.buf := by
  unfold lineWriteAll at h ⊢
  split
  · rename_i hl
    simp only [hl, if_true] at h
    have e : flushIfCompletedLine w = (w, true) := by
      unfold flushIfCompletedLine
      rw [if_neg]
      intro hc
      exact hn (List.mem_of_getLast? hc)
    simp only [e, Bool.true_eq_false, if_false] at h ⊢
    obtain ⟨a, b⟩ := bufWriteAll_cap cap w bs hw h
    refine ⟨a, fun hc => ?_⟩
    rcases b _ hc with hc | hc
    · exact hn hc
    · exact lineHead_nil_mem bs hl hc
  · rename_i hl
    simp only [hl, if_false] at h
    have key : ∀ f : Writer × Bool, (f.2 = true → f.1.buf = []) →
        (if f.2 = false then (f.1, false) else bufWriteAll cap f.1 (lineTail bs)).2 = true →
        (if f.2 = false then (f.1, false) else bufWriteAll cap f.1 (lineTail bs)).1.buf.length ≤ cap ∧
        (10 : UInt8) ∉ (if f.2 = false then (f.1, false) else bufWriteAll cap f.1 (lineTail bs)).1.buf := by
      intro f hf h
      by_cases hx : f.2 = false
      · simp [hx] at h
      · have hx' : f.2 = true := by simpa using hx
        simp only [hx', Bool.true_eq_false, if_false] at h ⊢
        have hb := hf hx'
        obtain ⟨a, b⟩ := bufWriteAll_cap cap f.1 (lineTail bs) (by simp [hb]) h
        refine ⟨a, fun hc => ?_⟩
        rcases b _ hc with hc | hc
        · simp [hb] at hc
        · exact lineTail_no_newline bs hc
    refine key _ ?_ h
    intro hx
    by_cases hwb : w.buf = []
    · simp only [hwb, if_true]
    · simp only [hwb, if_false] at hx ⊢
      by_cases hg : (bufWriteAll cap w (lineHead bs)).2 = false
      · simp [hg] at hx
      · have hg' : (bufWriteAll cap w (lineHead bs)).2 = true := by simpa using hg
        simp only [hg', Bool.true_eq_false, if_false] at hx ⊢
        exact flushBuf_empty _ hx

theorem stdout_chunks_cap (cap : Nat) (cs : List (List UInt8)) : ∀ w : Writer, w.buf.length ≤ cap →
    (10 : UInt8) ∉ w.buf → ((Sink.stdout cap).writeChunks w cs).2 = true →
    ((Sink.stdout cap).writeChunks w cs).1.buf.length ≤ cap ∧
      (10 : UInt8) ∉ ((Sink.stdout cap).writeChunks w cs).1.buf := by
  induction cs with
  | nil => intro w a b _; exact ⟨a, b⟩
  | cons c cs ih =>
    intro w a b h
    simp only [Sink.writeChunks, Sink.writeAll] at h ⊢
    by_cases hf : (lineWriteAll cap w c).2 = false
    · simp [hf] at h
    · have hf' : (lineWriteAll cap w c).2 = true := by simpa using hf
      simp only [hf', Bool.true_eq_false, if_false] at h ⊢
      obtain ⟨x, y⟩ := lineWriteAll_cap cap w c a b hf'
      exact ih _ x y h

theorem buffered_chunks_cap (cap : Nat) (cs : List (List UInt8)) : ∀ w : Writer, w.buf.length ≤ cap →
    ((Sink.buffered cap).writeChunks w cs).2 = true →
    ((Sink.buffered cap).writeChunks w cs).1.buf.length ≤ cap := by
  induction cs with
  | nil => intro w a _; exact a
  | cons c cs ih =>
    intro w a h
    simp only [Sink.writeChunks, Sink.writeAll] at h ⊢
    by_cases hf : (bufWriteAll cap w c).2 = false
    · simp [hf] at h
    · have hf' : (bufWriteAll cap w c).2 = true := by simpa using hf
      simp only [hf', Bool.true_eq_false, if_false] at h ⊢
      exact ih _ (bufWriteAll_cap cap w c a hf').1 h

/-- Without `flush`: what can get lost is what waits in the buffer. -/
theorem lost_runOn {α : Type} (k : Sink) (cap : Nat) (hk : k = .stdout cap ∨ k = .buffered cap)
    (prog : List (List UInt8) × Res α) (d : Device) (a : α) (h : (runOn k false prog d).2 = .ok a) :
    ∃ lost, (runOn k false prog d).1.content ++ lost = d.content ++ prog.1.flatten ∧ lost.length ≤ cap ∧
      (k = .stdout cap → (10 : UInt8) ∉ lost) := by
  obtain ⟨w, ok, o, ⟨p, m1, m2, m3, m4⟩, c1, c2, c3, -, c5⟩ := runOn_cases k false prog d
  obtain ⟨q, q1, ⟨lost, q2⟩, -⟩ := close_spec k w o
  cases ok with
  | false => rw [c2 rfl] at h; cases h
  | true =>
    have e := m3 rfl
    simp only [List.nil_append] at e m1
    have hc := c5 rfl (.inl rfl)
    have hlen : lost.length ≤ w.buf.length := by rw [← q2]; simp
    refine ⟨lost, ?_, ?_, ?_⟩
    · rw [Device.content, c1, q1, m1, List.flatten_append, List.flatten_append, List.append_assoc, List.append_assoc,
        q2, e]
      rfl
    · refine hlen.trans ?_
      rcases hk with hk | hk
      · subst hk
        have := (stdout_chunks_cap cap prog.1 ⟨d, []⟩ (by simp) (by simp) (by rw [← hc])).1
        rw [← hc] at this; exact this
      · subst hk
        have := buffered_chunks_cap cap prog.1 ⟨d, []⟩ (by simp) (by rw [← hc])
        rw [← hc] at this; exact this
    · intro hk
      subst hk
      have := (stdout_chunks_cap cap prog.1 ⟨d, []⟩ (by simp) (by simp) (by rw [← hc])).2
      rw [← hc] at this
      intro hl
      apply this
      show (10 : UInt8) ∈ w.buf
      rw [← q2]
      simp [hl]

/-- On the standard output an output that is empty or ends with a line feed is complete also without `flush`. -/
theorem complete_lines {α : Type} (cap : Nat) (prog : List (List UInt8) × Res α) (d : Device)
    (out : List UInt8 × Res α) (h : prog.1.flatten = out.1) (h2 : prog.2 = out.2)
    (hn : ∀ a, out.2 = .ok a → out.1 = [] ∨ out.1.getLast? = some 10) :
    Complete d out (runOn (.stdout cap) false prog d) := by
  obtain ⟨p, h1, -, -, h3, h4⟩ := runOn_pieces (.stdout cap) false prog d
  refine ⟨fun a ha => ?_, fun e he => by rw [← h2]; exact h4 e he⟩
  obtain ⟨lost, l1, -, l3⟩ := lost_runOn (.stdout cap) cap (.inl rfl) prog d a ha
  have hok : out.2 = .ok a := by rw [← h2]; exact (h3 a ha).1
  refine ⟨hok, ?_⟩
  have hl : lost = [] := by
    by_contra hne
    rcases hn a hok with hn | hn
    · -- nothing was written
      rw [h, hn, List.append_nil] at l1
      have : (runOn (.stdout cap) false prog d).1.content = d.content ++ p.flatten := by
        rw [Device.content, h1, List.flatten_append]; rfl
      rw [this, List.append_assoc] at l1
      have := List.append_right_eq_self.mp l1
      exact hne (List.append_eq_nil_iff.mp this).2
    · have e : lost.getLast? = some 10 := by
        have hx : (d.content ++ prog.1.flatten).getLast? = some 10 := by
          rw [h, List.getLast?_append, hn]; rfl
        rw [← l1, List.getLast?_append] at hx
        cases hg : lost.getLast? with
        | none => exact absurd (List.getLast?_eq_none_iff.mp hg) hne
        | some x => rw [hg] at hx; simpa using hx
      exact l3 rfl (List.mem_of_getLast? e)
  rw [hl, List.append_nil, h] at l1
  exact l1

/-! ### a device that refuses everything -/

theorem writeChunks_small (k : Sink) (cap : Nat) (cs : List (List UInt8)) : ∀ w : Writer,
    (k = .buffered cap ∨ (k = .stdout cap ∧ (10 : UInt8) ∉ w.buf ++ cs.flatten)) →
    w.buf.length + cs.flatten.length < cap → k.writeChunks w cs = (⟨w.dev, w.buf ++ cs.flatten⟩, true) := by
  induction cs with
  | nil => intro w _ _; simp [Sink.writeChunks]
  | cons c cs ih =>
    intro w hk hl
    simp only [List.flatten_cons, List.length_append] at hl
    have hb : bufWriteAll cap w c = (⟨w.dev, w.buf ++ c⟩, true) := by
      unfold bufWriteAll
      rw [if_pos (by omega)]
    have hw : k.writeAll w c = (⟨w.dev, w.buf ++ c⟩, true) := by
      rcases hk with hk | ⟨hk, hn⟩
      · subst hk; exact hb
      · subst hk
        have hlh : lineHead c = [] := by
          by_contra hne
          apply hn
          have htail : lineHead c = (c.reverse.dropWhile fun x => decide (x ≠ 10)).reverse := by
            have e1 := lineHead_append c
            have e2 : (c.reverse.dropWhile fun x => decide (x ≠ 10)).reverse ++ lineTail c = c := by
              rw [lineTail, ← List.reverse_append, List.takeWhile_append_dropWhile, List.reverse_reverse]
            exact List.append_cancel_right (e1.trans e2.symm)
          have hne' : (c.reverse.dropWhile fun x => decide (x ≠ 10)) ≠ [] := by
            intro h; rw [htail, h] at hne; exact hne rfl
          have := List.head_dropWhile_not (fun x : UInt8 => decide (x ≠ 10)) hne'
          have hh : (c.reverse.dropWhile fun x => decide (x ≠ 10)).head hne' = 10 := by simpa using this
          have hm : (10 : UInt8) ∈ c.reverse := by
            rw [← hh]
            exact (List.dropWhile_suffix _).subset (List.head_mem hne')
          simp only [List.flatten_cons, List.mem_append]
          exact .inr (.inl (by simpa using hm))
        have hf : flushIfCompletedLine w = (w, true) := by
          unfold flushIfCompletedLine
          rw [if_neg]
          intro hc
          apply hn
          simp [List.mem_of_getLast? hc]
        simp [Sink.writeAll, lineWriteAll, hlh, hf, hb]
    simp only [Sink.writeChunks, hw, Bool.true_eq_false, if_false]
    rw [ih]
    · simp
    · rcases hk with hk | ⟨hk, hn⟩
      · exact .inl hk
      · exact .inr ⟨hk, by simpa [List.append_assoc] using hn⟩
    · simp only [List.length_append]; omega

/-- A small output without `flush` on a dead device: the run ends as if nothing had happened, and nothing arrives. -/
theorem dead_runOn {α : Type} (k : Sink) (cap : Nat) (prog : List (List UInt8) × Res α) (d : Device)
    (hk : k = .buffered cap ∨ (k = .stdout cap ∧ (10 : UInt8) ∉ prog.1.flatten))
    (hl : prog.1.flatten.length < cap) (hd : d.Dead) :
    (runOn k false prog d).1.got = d.got ∧ (runOn k false prog d).2 = prog.2 := by
  have h := writeChunks_small k cap prog.1 ⟨d, []⟩ (by simpa using hk) (by simpa using hl)
  have hp : ∀ bs : List UInt8, (push d bs).1.got = d.got := by
    intro bs
    obtain ⟨h1, h2⟩ := hd
    cases bs with
    | nil => simp [push, h2, pushLoop]
    | cons b bs => simp [push, h2, h1, pushLoop]
  have hc : (k.close ⟨d, prog.1.flatten⟩).got = d.got := by
    rcases hk with hk | ⟨hk, -⟩ <;> subst hk <;> exact hp _
  simp only [runOn, h, List.nil_append, Bool.true_eq_false, if_false]
  cases prog.2 with
  | ok a => exact ⟨hc, rfl⟩
  | error e => exact ⟨hc, rfl⟩

end Verif
