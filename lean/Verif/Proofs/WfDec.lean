import Verif.Spec.Wf

/-!
# Well-formedness is decidable

Only used to check that concrete documents are well-formed.
-/

namespace Rphtml.Spec

theorem noClose_iff {cs : Bool} {n w : Str} :
    (∀ u k v, w = u ++ ['<', '/'] ++ k ++ ['>'] ++ v → ¬ closes cs n k) ↔
    ∀ i, i < w.length → ∀ j, j < w.length →
      w = w.take i ++ ['<', '/'] ++ (w.drop (i + 2)).take j ++ ['>'] ++ w.drop (i + 2 + j + 1) →
      ¬ closes cs n ((w.drop (i + 2)).take j) := by
  constructor
  · intro h i _ j _ e
    exact h _ _ _ e
  · intro h u k v e
    have := h u.length (by rw [e]; simp) k.length (by rw [e]; simp; omega)
    have e1 : w.take u.length = u := by rw [e]; simp
    have e2 : (w.drop (u.length + 2)).take k.length = k := by
      rw [e]
      have : u.length + 2 = (u ++ ['<', '/']).length := by simp
      rw [this, List.append_assoc, List.append_assoc, List.drop_left]; simp
    have e3 : w.drop (u.length + 2 + k.length + 1) = v := by
      rw [e]
      have : u.length + 2 + k.length + 1 = (u ++ ['<', '/'] ++ k ++ ['>']).length := by simp; omega
      rw [this, List.drop_left]
    rw [e1, e2, e3] at this
    exact this e

instance (cs : Bool) (n w : Str) : Decidable (∀ u k v, w = u ++ ['<', '/'] ++ k ++ ['>'] ++ v → ¬ closes cs n k) :=
  decidable_of_iff' _ noClose_iff

instance : (n : Str) → Decidable (tagName n)
  | [] => .isFalse id
  | _ :: _ => by unfold tagName; infer_instance

instance (a b : Bool) : (n : Str) → Decidable (attrName a b n)
  | [] => .isFalse id
  | _ :: _ => by unfold attrName; infer_instance

instance : (n : Str) → Decidable (plainValue n)
  | [] => .isFalse id
  | _ :: _ => by unfold plainValue; infer_instance

instance (q : Char) (v : Str) : Decidable (quotedValue q v) := by unfold quotedValue; infer_instance

instance (a b : Bool) (x : Attr) : Decidable (legalAttr a b x) := by
  unfold legalAttr
  have : Decidable (match x.key, x.value, x.quote with
    | some k, none, none => attrName a b k
    | some k, some v, none => attrName a b k ∧ plainValue v
    | some k, some v, some q => attrName a b k ∧ quotedValue q v
    | none, some v, some q => b = true ∧ quotedValue q v
    | _, _, _ => False) := by split <;> infer_instance
  infer_instance

/-- A decision procedure for `eqApart`. -/
def decEqApart : (as : List Attr) → Decidable (eqApart as)
  | [] => .isTrue (by simp [eqApart])
  | [_] => .isTrue (by simp [eqApart])
  | a :: b :: as =>
    have : Decidable (eqApart (b :: as)) := decEqApart (b :: as)
    by unfold eqApart; infer_instance

instance (as : List Attr) : Decidable (eqApart as) := decEqApart as

instance (a b : Bool) (as : List Attr) : Decidable (legalAttrs a b as) := by unfold legalAttrs; infer_instance

instance (o : ParseOptions) (n : Str) (ct e : Option Str) : Decidable (∃ w e', ct = some w ∧ e = some e' ∧
    closes o.caseSensitiveTagname n e' ∧
    ∀ u k v, w = u ++ ['<', '/'] ++ k ++ ['>'] ++ v → ¬ closes o.caseSensitiveTagname n k) :=
  match ct, e with
  | some w, some e' =>
    decidable_of_iff (closes o.caseSensitiveTagname n e' ∧
      ∀ u k v, w = u ++ ['<', '/'] ++ k ++ ['>'] ++ v → ¬ closes o.caseSensitiveTagname n k)
      ⟨fun h => ⟨w, e', rfl, rfl, h⟩, by rintro ⟨_, _, ⟨⟩, ⟨⟩, h⟩; exact h⟩
  | none, _ => .isFalse (by rintro ⟨_, _, ⟨⟩, _⟩)
  | _, none => .isFalse (by rintro ⟨_, _, _, ⟨⟩, _⟩)

instance (o : ParseOptions) (n : Str) (e : Option Str) : Decidable (∃ e', e = some e' ∧ closes o.caseSensitiveTagname n e') :=
  match e with
  | some e' => decidable_of_iff (closes o.caseSensitiveTagname n e') ⟨fun h => ⟨e', rfl, h⟩, by rintro ⟨_, ⟨⟩, h⟩; exact h⟩
  | none => .isFalse (by rintro ⟨_, ⟨⟩, _⟩)

mutual
/-- A decision procedure for nodes. -/
def decNode (o : ParseOptions) (ctx parent : Option Str) : (p : PNode) → Decidable (wfNode o ctx parent p)
  | .text _ => by unfold wfNode; infer_instance
  | .comment _ => by unfold wfNode; infer_instance
  | .cdata _ => by unfold wfNode; infer_instance
  | .doctype .. => by unfold wfNode; infer_instance
  | .elem n as s ct ks e =>
    have : Decidable (wfNodes o (enter ctx n) (some n) ks) := decNodes o (enter ctx n) (some n) ks
    by unfold wfNode; infer_instance

/-- A decision procedure for lists of nodes. -/
def decNodes (o : ParseOptions) (ctx parent : Option Str) : (ps : List PNode) → Decidable (wfNodes o ctx parent ps)
  | [] => .isTrue (by simp [wfNodes])
  | p :: ps =>
    have h1 : Decidable (wfNode o ctx parent p) := decNode o ctx parent p
    have h2 : Decidable (wfNodes o (ctxNode ctx p) parent ps) := decNodes o (ctxNode ctx p) parent ps
    have h3 : Decidable (isText p = true → ∀ q, ps.head? = some q → isText q = false) :=
      match ps with
      | [] => .isTrue (by simp)
      | q :: qs => decidable_of_iff (isText p = true → isText q = false) (by simp)
    by unfold wfNodes; infer_instance
end

instance (o : ParseOptions) (ps : List PNode) : Decidable (wfDoc o ps) := decNodes o none none ps

end Rphtml.Spec
