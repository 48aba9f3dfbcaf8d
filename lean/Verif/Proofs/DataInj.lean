import Verif.Spec.Desc
/-
Different documents have different meta data.
-/
namespace Verif
open Spec

theorem nodeOf_inj {n : Str} {b b' x y : List MetaData} (h : nodeOf n b ++ x = nodeOf n b' ++ y) :
    b ++ .endNode n :: x = b' ++ .endNode n :: y := by
  simpa [nodeOf] using h

theorem flag_inj {p : Str} {o o' : Option Bool} {x y : List MetaData} (hx : ∀ b, x.head? ≠ some (.bool p b))
    (hy : ∀ b, y.head? ≠ some (.bool p b)) (h : flag p o ++ x = flag p o' ++ y) : o = o' ∧ x = y := by
  cases o with
  | none =>
    cases o' with
    | none => exact ⟨rfl, h⟩
    | some b =>
      rw [show flag p none ++ x = x from rfl] at h
      exact absurd (by rw [h]; rfl) (hx b)
  | some b =>
    cases o' with
    | none =>
      rw [show flag p none ++ y = y from rfl] at h
      exact absurd (by rw [← h]; rfl) (hy b)
    | some b' =>
      simp only [flag, List.cons_append, List.nil_append, List.cons.injEq, MetaData.bool.injEq, true_and] at h
      exact ⟨by rw [h.1], h.2⟩

theorem setData_inj {p : Str} {v v' : SetV} {x y : List MetaData} (h : v.data p ++ x = v'.data p ++ y) :
    v = v' ∧ x = y := by
  cases v <;> cases v' <;> simp_all [SetV.data, nodeOf]

theorem setData_head {p : Str} (v : SetV) (x : List MetaData) : (v.data p ++ x).head? = some (.startNode p) := by
  cases v <;> rfl

theorem propData_inj {v v' : Option SetV} {x y : List MetaData} (hx : x.head? ≠ some (.startNode c!"property"))
    (hy : y.head? ≠ some (.startNode c!"property")) (h : propData v ++ x = propData v' ++ y) : v = v' ∧ x = y := by
  cases v with
  | none =>
    cases v' with
    | none => exact ⟨rfl, h⟩
    | some b =>
      rw [show propData none ++ x = x from rfl] at h
      exact absurd (by rw [h]; exact setData_head _ _) hx
  | some b =>
    cases v' with
    | none =>
      rw [show propData none ++ y = y from rfl] at h
      exact absurd (by rw [← h]; exact setData_head _ _) hy
    | some b' => exact ⟨by rw [(setData_inj h).1], (setData_inj h).2⟩

theorem propData_head {n : Str} {v : Option SetV} {x : List MetaData} :
    ∀ p b, (propData v ++ .endNode n :: x).head? ≠ some (.bool p b) := by
  intro p b
  cases v with
  | none => simp [propData]
  | some v => rw [propData, setData_head]; simp

/-- The name of the node. -/
def Spec.Desc.kind : Desc → Str
  | .whitespace _ => c!"whitespace"
  | .untilAnyOrWs _ _ _ => c!"until_any_or_whitespace"
  | .untilAny _ _ _ => c!"until_any"
  | .tag _ _ _ _ => c!"tag"
  | .text _ _ => c!"text"
  | .number _ _ => c!"number"
  | .reference _ _ => c!"reference"
  | .sequence _ => c!"sequence"
  | .select _ => c!"select"
  | .optional _ => c!"optional"
  | .not _ => c!"not"
  | .separatedBy _ _ _ _ => c!"separated_by"
  | .lines _ _ => c!"lines"
  | .repeat_ _ _ => c!"repeat"

theorem data_head (d : Desc) (x : List MetaData) : (d.data ++ x).head? = some (.startNode d.kind) := by
  cases d <;> rfl

mutual
/-- The description is found in its data. -/
theorem data_inj : (d d' : Desc) → (x y : List MetaData) → d.data ++ x = d'.data ++ y → d = d' ∧ x = y
  | d, d', x, y, h => by
    have hk : d.kind = d'.kind := by
      have := data_head d x
      rw [h, data_head] at this
      simpa using this.symm
    cases d with
    | whitespace o =>
      cases d' <;> first | (simp [Spec.Desc.kind] at hk; done) | skip
      simp_all [Desc.data, nodeOf]
    | untilAnyOrWs any o p =>
      cases d' <;> first | (simp [Spec.Desc.kind] at hk; done) | skip
      simp only [Desc.data] at h
      replace h := nodeOf_inj h
      simp only [List.append_assoc] at h
      replace h := setData_inj h
      obtain ⟨rfl, h⟩ := h
      replace h := flag_inj (propData_head _) (propData_head _) h
      obtain ⟨rfl, h⟩ := h
      replace h := propData_inj (by simp) (by simp) h
      obtain ⟨rfl, h⟩ := h
      simpa using h
    | untilAny any o p =>
      cases d' <;> first | (simp [Spec.Desc.kind] at hk; done) | skip
      simp only [Desc.data] at h
      replace h := nodeOf_inj h
      simp only [List.append_assoc] at h
      replace h := setData_inj h
      obtain ⟨rfl, h⟩ := h
      replace h := flag_inj (propData_head _) (propData_head _) h
      obtain ⟨rfl, h⟩ := h
      replace h := propData_inj (by simp) (by simp) h
      obtain ⟨rfl, h⟩ := h
      simpa using h
    | tag neg t inv p =>
      cases d' <;> first | (simp [Spec.Desc.kind] at hk; done) | skip
      simp only [Desc.data] at h
      replace h := nodeOf_inj h
      simp only [List.append_assoc] at h
      replace h := flag_inj (fun b => by rw [setData_head]; simp) (fun b => by rw [setData_head]; simp) h
      obtain ⟨rfl, h⟩ := h
      replace h := setData_inj h
      obtain ⟨rfl, h⟩ := h
      replace h := flag_inj (propData_head _) (propData_head _) h
      obtain ⟨rfl, h⟩ := h
      replace h := propData_inj (by simp) (by simp) h
      obtain ⟨rfl, h⟩ := h
      simpa using h
    | text e p =>
      cases d' <;> first | (simp [Spec.Desc.kind] at hk; done) | skip
      simp only [Desc.data] at h
      replace h := nodeOf_inj h
      simp only [List.append_assoc] at h
      replace h := flag_inj (propData_head _) (propData_head _) h
      obtain ⟨rfl, h⟩ := h
      replace h := propData_inj (by simp) (by simp) h
      obtain ⟨rfl, h⟩ := h
      simpa using h
    | number u p =>
      cases d' <;> first | (simp [Spec.Desc.kind] at hk; done) | skip
      simp only [Desc.data] at h
      replace h := nodeOf_inj h
      simp only [List.append_assoc] at h
      replace h := flag_inj (propData_head _) (propData_head _) h
      obtain ⟨rfl, h⟩ := h
      replace h := propData_inj (by simp) (by simp) h
      obtain ⟨rfl, h⟩ := h
      simpa using h
    | reference name p =>
      cases d' <;> first | (simp [Spec.Desc.kind] at hk; done) | skip
      simp only [Desc.data] at h
      replace h := nodeOf_inj h
      simp only [List.cons_append, List.cons.injEq, MetaData.string.injEq, true_and] at h
      obtain ⟨rfl, h⟩ := h
      replace h := propData_inj (by simp) (by simp) h
      obtain ⟨rfl, h⟩ := h
      simpa using h
    | sequence args =>
      cases d' <;> first | (simp [Spec.Desc.kind] at hk; done) | skip
      simp only [Desc.data] at h
      replace h := dataL_inj args _ _ x y (nodeOf_inj h)
      obtain ⟨rfl, h⟩ := h
      simpa using h
    | select args =>
      cases d' <;> first | (simp [Spec.Desc.kind] at hk; done) | skip
      simp only [Desc.data] at h
      replace h := dataL_inj args _ _ x y (nodeOf_inj h)
      obtain ⟨rfl, h⟩ := h
      simpa using h
    | optional d =>
      cases d' <;> first | (simp [Spec.Desc.kind] at hk; done) | skip
      simp only [Desc.data] at h
      replace h := data_inj d _ _ _ (nodeOf_inj (nodeOf_inj h))
      obtain ⟨rfl, h⟩ := h
      simpa using h
    | not d =>
      cases d' <;> first | (simp [Spec.Desc.kind] at hk; done) | skip
      simp only [Desc.data] at h
      replace h := data_inj d _ _ _ (nodeOf_inj (nodeOf_inj h))
      obtain ⟨rfl, h⟩ := h
      simpa using h
    | separatedBy o t b d =>
      cases d' <;> first | (simp [Spec.Desc.kind] at hk; done) | skip
      simp only [Desc.data] at h
      replace h := nodeOf_inj h
      simp only [List.append_assoc] at h
      rename_i o' t' b' d'
      replace h := flag_inj (by cases t <;> simp [flag, nodeOf]) (by cases t' <;> simp [flag, nodeOf]) h
      obtain ⟨rfl, h⟩ := h
      replace h := flag_inj (by simp [nodeOf]) (by simp [nodeOf]) h
      obtain ⟨rfl, h⟩ := h
      replace h := data_inj b _ _ _ (nodeOf_inj h)
      obtain ⟨rfl, h⟩ := h
      simp only [List.cons.injEq, true_and] at h
      replace h := data_inj d _ _ _ (nodeOf_inj h)
      obtain ⟨rfl, h⟩ := h
      simpa using h
    | lines i d =>
      cases d' <;> first | (simp [Spec.Desc.kind] at hk; done) | skip
      simp only [Desc.data] at h
      replace h := nodeOf_inj h
      simp only [List.append_assoc] at h
      replace h := flag_inj (by simp [nodeOf]) (by simp [nodeOf]) h
      obtain ⟨rfl, h⟩ := h
      replace h := data_inj d _ _ _ (nodeOf_inj h)
      obtain ⟨rfl, h⟩ := h
      simpa using h
    | repeat_ o d =>
      cases d' <;> first | (simp [Spec.Desc.kind] at hk; done) | skip
      simp only [Desc.data] at h
      replace h := nodeOf_inj h
      simp only [List.cons_append, List.cons.injEq, MetaData.bool.injEq, true_and] at h
      obtain ⟨rfl, h⟩ := h
      replace h := data_inj d _ _ _ (nodeOf_inj h)
      obtain ⟨rfl, h⟩ := h
      simpa using h
theorem dataL_inj : (ds ds' : List Desc) → (n : Str) → (x y : List MetaData) →
    Desc.dataL ds ++ .endNode n :: x = Desc.dataL ds' ++ .endNode n :: y → ds = ds' ∧ x = y
  | [], ds', n, x, y, h => by
    cases ds' with
    | nil => simpa [Desc.dataL] using h
    | cons d ds => simp [Desc.dataL, nodeOf] at h
  | d :: ds, ds', n, x, y, h => by
    cases ds' with
    | nil => simp [Desc.dataL, nodeOf] at h
    | cons d' ds' =>
      simp only [Desc.dataL, List.append_assoc] at h
      replace h := data_inj d _ _ _ (nodeOf_inj h)
      obtain ⟨rfl, h⟩ := h
      simp only [List.cons.injEq, true_and] at h
      replace h := dataL_inj ds _ _ _ _ h
      obtain ⟨rfl, h⟩ := h
      exact ⟨rfl, h⟩
end

theorem nodes_inj : (ns ns' : List (F64 × Str × Desc)) →
    (ns.flatMap fun n => nodeOf c!"node" (.f64 c!"id" n.1 :: .string c!"name" n.2.1 :: nodeOf c!"rule" n.2.2.data)) =
    (ns'.flatMap fun n => nodeOf c!"node" (.f64 c!"id" n.1 :: .string c!"name" n.2.1 :: nodeOf c!"rule" n.2.2.data)) →
    ns = ns'
  | [], [], _ => rfl
  | [], _ :: _, h => by simp [nodeOf] at h
  | _ :: _, [], h => by simp [nodeOf] at h
  | (k, name, d) :: ns, (k', name', d') :: ns', h => by
    simp only [List.flatMap_cons] at h
    replace h := nodeOf_inj h
    simp only [List.cons_append, List.cons.injEq, MetaData.f64.injEq, MetaData.string.injEq, true_and] at h
    obtain ⟨rfl, rfl, h⟩ := h
    replace h := data_inj d _ _ _ (nodeOf_inj h)
    obtain ⟨rfl, h⟩ := h
    simp only [List.cons.injEq, true_and] at h
    rw [nodes_inj ns ns' h]

/-- The document is found in its data. -/
theorem doc_inj {doc doc' : Doc} (h : doc.data = doc'.data) : doc = doc' := by
  obtain ⟨ss, ns⟩ := doc
  obtain ⟨ss', ns'⟩ := doc'
  simp only [Doc.data] at h
  have head : ∀ ns : List (F64 × Str × Desc), (ns.flatMap fun n =>
      nodeOf c!"node" (.f64 c!"id" n.1 :: .string c!"name" n.2.1 :: nodeOf c!"rule" n.2.2.data)).head? ≠
      some (.startNode c!"string") := by
    intro ns
    cases ns <;> simp [nodeOf]
  induction ss generalizing ss' with
  | nil =>
    cases ss' with
    | nil => rw [nodes_inj ns ns' (by simpa using h)]
    | cons s ss' => exact absurd (by rw [show _ = _ from (List.nil_append _).symm.trans h]; rfl) (head ns)
  | cons s ss ih =>
    cases ss' with
    | nil => exact absurd (by rw [← show _ = _ from h.trans (List.nil_append _)]; rfl) (head ns')
    | cons s' ss' =>
      simp only [List.flatMap_cons, List.append_assoc] at h
      replace h := nodeOf_inj h
      simp only [List.cons_append, List.nil_append, List.cons.injEq, MetaData.string.injEq, true_and] at h
      obtain ⟨h1, h2, h⟩ := h
      have := ih ss' h
      simp only [Doc.mk.injEq] at this ⊢
      exact ⟨by rw [this.1, Prod.ext h1 h2], this.2⟩

end Verif
