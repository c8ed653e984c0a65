import Verif.Props.Errors
import Verif.Props.Position

/-! # C25: error positions are real positions -/

namespace Rphtml
open Spec

/-- The current node begins before the position, also if it is an end tag. -/
structure CurInv (d : Doc) : Prop where
  cur : d.cur.nodeType = .tagEnd → d.cur.beginAt < d.position
  back : d.handle = .tagEnd → ∀ p, d.cur.prev = some p → (d.heap.cell p).nodeType = .tagEnd →
    (d.heap.cell p).beginAt < d.position

theorem CurInv.step {o : ParseOptions} {s : Str} {d d' : Doc} {c : Char} (hr : Reach o s d) (g : CurInv d)
    (hs : Step d c d') : CurInv { d' with position := d'.position + 1 } := by
  have hd := hr.ctl
  have he := hs.eff hd
  have hk := he.keep hd
  have hpos := hs.frame.1
  have hcl := hd.curLt
  have hty : ∀ i, i < d.heap.size → (d'.heap.cell i).nodeType = .tagEnd → (d.heap.cell i).nodeType = .tagEnd := by
    intro i hi h
    rcases (hk i hi).ty with h1 | h1
    · rw [← h1]; exact h
    · rw [h1.2.1] at h; cases h
  have hstay : (d'.heap.cell d.current).nodeType = .tagEnd → (d'.heap.cell d.current).beginAt < d'.position + 1 := by
    intro h
    have := g.cur (hty _ hcl h)
    rw [(hk _ hcl).beginAt]
    unfold Doc.cur at this
    omega
  have hback : d.handle = .tagEnd → ∀ p, (d'.heap.cell d.current).prev = some p → (d'.heap.cell p).nodeType = .tagEnd →
      (d'.heap.cell p).beginAt < d'.position + 1 := by
    intro hh p hp ht
    rw [(hk _ hcl).prev] at hp
    have hpl : p < d.heap.size := by
      have h1 := hd.hs
      unfold HandleOk at h1
      simp only [hh] at h1
      exact (h1.2.2.2.2 p hp).1
    have := g.back hh p hp (hty p hpl ht)
    rw [(hk _ hpl).beginAt]
    omega
  have hmk : d'.current = d.current → d'.handle ≠ .tagEnd ∨ d.handle = .tagEnd → CurInv { d' with position := d'.position + 1 } := by
    intro h1 h2
    refine ⟨?_, ?_⟩
    · show (d'.heap.cell d'.current).nodeType = .tagEnd → (d'.heap.cell d'.current).beginAt < d'.position + 1
      rw [h1]; exact hstay
    · show d'.handle = .tagEnd → ∀ p, (d'.heap.cell d'.current).prev = some p → _
      rw [h1]
      intro h
      rcases h2 with h2 | h2
      · exact absurd h h2
      · exact hback h2
  cases he with
  | data ct m e hea hheap hm hchain hct hend =>
    rcases hend with ⟨h1, h2⟩ | ⟨h1, h2, h3, h4⟩
    · by_cases h : d.handle = .tagEnd
      · exact hmk h1 (Or.inr h)
      · exact hmk h1 (Or.inl fun q => h (h2.1 q))
    · cases hp : d.cur.prev with
      | none =>
        rw [hp] at h1
        exact hmk h1 (Or.inr h2)
      | some p =>
        rw [hp] at h1
        have h1 : d'.current = p := h1
        refine ⟨?_, ?_⟩
        · show (d'.heap.cell d'.current).nodeType = .tagEnd → (d'.heap.cell d'.current).beginAt < d'.position + 1
          rw [h1]
          exact hback h2 p (by rw [(hk _ hcl).prev]; exact hp)
        · show d'.handle = .tagEnd → _
          intro h; rw [h3] at h; cases h
  | child p ty b oo hp hty' ho hb hheap hchain hcur hend =>
    refine ⟨?_, fun h => absurd h hend.2⟩
    show (d'.heap.cell d'.current).nodeType = .tagEnd → _
    rw [hcur, hheap, grown_cell hd p hp _ oo ho]
    intro h
    have h : ty = .tagEnd := h
    rw [h] at hty'; cases hty'
  | ltChild p n hf hn hp hheap hchain hcur hend =>
    refine ⟨?_, fun h => absurd h hend.2⟩
    show (d'.heap.cell d'.current).nodeType = .tagEnd → _
    have hplt : p < d.heap.size := by
      rcases hp with h | h | h
      · rw [h.1]; exact hd.curLt
      · exact hd.chain_head h
      · rw [h.2, hd.root0]; exact hd.sizePos
    obtain ⟨ct, e, k, hn, _⟩ := hn
    rw [hcur, hheap, Heap.upd_cell, Heap.push_cell, hn]
    have : ¬ d.heap.size = p := by omega
    simp only [this, if_false, if_true]
    intro h; cases h
  | endPush pv hpv hheap hchain hcur hend =>
    have hmem := hr.mem_lt (by rw [hend.1]; rfl)
    have hnew : d'.heap.cell d.heap.size = { Cell.new .tagEnd d.memPosition with prev := pv } := by
      rw [hheap, Heap.push_cell]; simp
    refine ⟨?_, ?_⟩
    · show (d'.heap.cell d'.current).nodeType = .tagEnd → (d'.heap.cell d'.current).beginAt < d'.position + 1
      intro _
      rw [hcur, hnew]
      show d.memPosition < d'.position + 1
      omega
    · show d'.handle = .tagEnd → ∀ p, (d'.heap.cell d'.current).prev = some p → (d'.heap.cell p).nodeType = .tagEnd →
        (d'.heap.cell p).beginAt < d'.position + 1
      rw [hcur, hnew]
      intro _ p hp ht
      have hp : pv = some p := hp
      rw [hpv] at hp
      split at hp
      · cases hp; exact hstay ht
      · cases hp
  | endLink t m hm hty' hheap hchain hcur hend => exact hmk hcur (Or.inr hend.1)
  | rawEnd n hty' hp hheap hchain hcur hend => exact hmk hcur (Or.inl (by rw [hend.2]; simp))

theorem Reach.curInv {o : ParseOptions} {s : Str} {d : Doc} (h : Reach o s d) : CurInv d := by
  induction h with
  | init => exact ⟨fun h => (by cases h), fun h => (by cases h)⟩
  | step hr hs ih => exact ih.step hr hs

/-- Every node that a parser state can refer to begins inside the text read so far. -/
theorem Reach.cur_begin {o : ParseOptions} {s : Str} {d : Doc} (h : Reach o s d) (hs : s ≠ []) : d.cur.beginAt < s.length := by
  rw [← h.position]
  have hp := h.pos
  have hlen : 0 < d.position := by rw [h.position]; exact List.length_pos_iff.2 hs
  by_cases ht : d.cur.nodeType = .tagEnd
  · exact h.curInv.cur ht
  · by_cases h0 : d.current = 0
    · unfold Doc.cur; rw [h0, hp.root]; exact hlen
    · have := hp.before d.current (by omega) h.ctl.curLt ht
      have hb : d.bound ≤ d.position := by
        unfold Doc.bound; split
        · rename_i h'; exact Nat.le_of_lt (h.mem_lt h')
        · exact Nat.le_refl _
      unfold Doc.cur; omega

theorem Reach.chain_begin {o : ParseOptions} {s : Str} {d : Doc} (h : Reach o s d) {t : NodeId} (ht : t ∈ d.chain) (h0 : t ≠ 0) :
    (d.heap.cell t).beginAt < s.length := by
  rw [← h.position]
  have := h.pos.before t (by omega) (h.ctl.chainLt t ht) (by rw [h.ctl.chainTag t ht h0]; simp)
  have hb : d.bound ≤ d.position := by
    unfold Doc.bound; split
    · rename_i h'; exact Nat.le_of_lt (h.mem_lt h')
    · exact Nat.le_refl _
  omega

/-- The errors at the end of the input point into the input. -/
theorem Reach.eof_err {o : ParseOptions} {s ctx : Str} {d : Doc} {e : ParseError} (hr : Reach o s d)
    (h : d.eof ctx = .err e) : e.region.index < s.length := by
  have hd := hr.ctl
  have hne : d.codeIn ≠ .abstractRoot → d.cur.beginAt < s.length := by
    intro hc
    apply hr.cur_begin
    intro hs
    cases hr with
    | init => exact hc rfl
    | step => simp at hs
  unfold Doc.eof at h
  simp only [Res.bind_eq] at h
  cases hc : d.eofChain ctx with
  | panic p => rw [hc] at h; simp at h
  | err e' =>
    rw [hc] at h
    simp only [Res.bind, Res.err.injEq] at h
    subst h
    unfold Doc.eofChain at hc
    split at hc
    · rename_i hl
      split at hc
      · split at hc
        · cases hc
        · rename_i t ht
          split at hc
          · cases hc
          · simp only [createParseError, Res.err.injEq] at hc
            rw [← hc, fromContextIndex_index]
            apply hr.chain_begin (List.mem_of_mem_head? ht)
            intro h0
            -- the last open tag is the root, so the first one is not
            have hs := hd.chainSorted
            have hla := hd.chainLast (by intro q; rw [q] at hl; simp at hl)
            cases hch : d.chain with
            | nil => rw [hch] at hl; simp at hl
            | cons a as =>
              rw [hch] at hs ht hl hla
              simp only [List.head?_cons, Option.some.injEq] at ht
              have has : as ≠ [] := by intro q; rw [q] at hl; simp at hl
              rw [List.getLast?_cons_of_ne_nil has] at hla
              have := (List.pairwise_cons.1 hs).1 0 (List.mem_of_getLast? hla)
              omega
      · cases hc
    · cases hc
  | ok d1 =>
    have hd1 : d1.codeIn = d.codeIn ∧ d1.cur.beginAt = d.cur.beginAt := by
      unfold Doc.eofChain at hc
      split at hc
      · rename_i hl
        split at hc
        · split at hc
          · simp only [Res.ok.injEq] at hc; subst hc; exact ⟨rfl, rfl⟩
          · split at hc
            · cases hc
            · cases hc
        · simp only [Res.ok.injEq] at hc
          rw [fixUnclosedTag_eq] at hc
          subst hc
          refine ⟨rfl, ?_⟩
          have h1 := fixedHeap_cell hd d.current hd.curLt
          unfold Doc.fixedHeap at h1
          rw [if_pos hl] at h1
          show ((fixHeap d.position d.heap d.chain.dropLast.reverse).cell d.current).beginAt = _
          rcases h1 with h1 | ⟨_, _, _, m, e, _, _, _, h1, _⟩
          · rw [h1]; rfl
          · rw [h1]; rfl
      · simp only [Res.ok.injEq] at hc; subst hc; exact ⟨rfl, rfl⟩
    rw [hc] at h
    simp only [Res.bind] at h
    cases hs : d1.eofState ctx with
    | panic p => rw [hs] at h; simp at h
    | ok d2 => rw [hs] at h; simp at h
    | err e' =>
      rw [hs] at h
      simp only [Res.err.injEq] at h
      subst h
      have hi : e'.region.index = d1.cur.beginAt ∧ d1.codeIn ≠ .abstractRoot := by
        unfold Doc.eofState at hs
        split at hs
        · cases hs
        · cases hs
        · cases hs
        · rename_i q
          split at hs
          · simp only [createParseError, Res.err.injEq] at hs
            rw [← hs, fromContextIndex_index, q]; exact ⟨rfl, by simp⟩
          · cases hs
        · rename_i q1 q2 q3 q4
          simp only [createParseError, Res.err.injEq] at hs
          rw [← hs, fromContextIndex_index]
          exact ⟨rfl, q3⟩
      rw [hi.1, hd1.2]
      exact hne (by rw [← hd1.1]; exact hi.2)

/-- **C25**: the index of a reported error lies in the input, the line is one more than the number of line breaks
(with `\r\n` counted once) up to and including that character, and the column is the number of characters after the
last of them. -/
theorem c25_positions {s : Str} {o : ParseOptions} {e : ParseError} (h : Doc.parse s o = .err e) :
    e.region.index < s.length ∧ e.region.line = 1 + lineBreaks (s.take (e.region.index + 1)) ∧
    e.region.col = lastLineLength (s.take (e.region.index + 1)) := by
  have hi : e.region.index < s.length := by
    unfold Doc.parse at h
    simp only [Res.bind_eq] at h
    cases hr : (Doc.new o).run s s with
    | panic p => rw [hr] at h; simp at h
    | err e' =>
      rw [hr] at h
      simp only [Res.bind, Res.err.injEq] at h
      subst h
      have := run_err hr (Nat.zero_le _)
      have hp : (Doc.new o).position = 0 := rfl
      omega
    | ok d =>
      rw [hr] at h
      simp only [Res.bind] at h
      have hre : Reach o s d := Reach.run s [] _ d Reach.init hr
      cases he : d.eof s with
      | ok d' => rw [he] at h; simp at h
      | panic p => rw [he] at h; simp at h
      | err e' =>
        rw [he] at h
        simp only [Res.err.injEq] at h
        subst h
        exact hre.eof_err he
  have hreg : e.region = CodeRegion.fromContextIndex s e.region.index := by
    have h2 : (Doc.parse s o).rectx s = Doc.parse s o := by
      unfold Doc.parse
      simp only [Res.bind_eq, rectx_bind, run_rectx, eof_rectx, rectx_ok]
    rw [h] at h2
    simp only [Res.rectx, createParseError, Res.err.injEq] at h2
    exact (congrArg ParseError.region h2).symm
  refine ⟨hi, ?_, ?_⟩
  · rw [hreg, c25_region_spec]
  · rw [hreg, c25_region_spec]

/-- Errors while reading and at the end of the input, on the first and on later lines. -/
example : (match Doc.parse "a\r\n<b>\n</c>".toList {} with | .err e => some e.region | _ => none) = some ⟨10, 3, 4⟩ ∧
    (match Doc.parse "a\r\n\n <b>c\n".toList {} with | .err e => some e.region | _ => none) = some ⟨5, 3, 2⟩ ∧
    (match Doc.parse "<".toList {} with | .err e => some e.region | _ => none) = some ⟨0, 1, 1⟩ := by decide +kernel

end Rphtml
