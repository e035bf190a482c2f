import Verif.Encoding.Lemmas

/-!
Properties C01 (primitive encoding round trip), C02 (stored symbols come back unchanged) and C03
(truncated records are never silently accepted).
-/

namespace Verif.Encoding

/-! ## C01 -/

/-- C01: any sequence of values, written one after the other, is read back as the same sequence,
leaving exactly the bytes that followed. -/
theorem C01_primitive_round_trip (vs : List Val) (h : ∀ v ∈ vs, v.WF) (rest : Bytes) :
    readAll (vs.map Val.kind) (writeAll vs ++ rest) = some (vs, rest) := by
  have one : ∀ v : Val, v.WF → Reads v.kind.read v.write v := by
    intro v hv
    cases v with
    | int v => exact Reads.map (readInt_reads v) rfl
    | u64 v => exact Reads.map (readUInt64_reads v) rfl
    | u32 v => exact Reads.map (readUInt32_reads v) rfl
    | str s => exact Reads.map (readString_reads s hv) rfl
    | bool b => exact Reads.map (readBool_reads b) rfl
    | pos p => exact Reads.map (readPosition_reads p) rfl
    | loc l => exact Reads.map (readLocation_reads l hv) rfl
  have all : Reads (readAll (vs.map Val.kind)) (writeAll vs) vs := by
    induction vs with
    | nil => exact Reads.pure _
    | cons v vs ih =>
      exact Reads.bind (one v (h v (by simp)))
        (Reads.map (ih fun w hw => h w (by simp [hw])) rfl)
  exact all rest

example : ∀ v ∈ [Val.str b!"Foo\\Bar", .int (-3), .bool true,
    .loc ⟨b!"file:///a.php", ⟨⟨1, 2⟩, ⟨3, 4⟩⟩⟩], v.WF := by
  simp [Val.WF, Str, Location.WF]

/-- C01, injectivity: two different sequences of the same kinds never share an encoding. -/
theorem C01_encoding_injective (vs ws : List Val) (hv : ∀ v ∈ vs, v.WF) (hw : ∀ v ∈ ws, v.WF)
    (hk : vs.map Val.kind = ws.map Val.kind) (he : writeAll vs = writeAll ws) : vs = ws := by
  have h1 := C01_primitive_round_trip vs hv []
  have h2 := C01_primitive_round_trip ws hw []
  rw [hk, he, h2] at h1
  simpa using h1.symm

/-- C01, fixed widths: an integer always takes 8 bytes, a string 8 plus its length. -/
theorem C01_widths (v : GoInt) (s : Bytes) (b : Bool) (l : Location) :
    (writeInt v).length = 8 ∧ (writeString s).length = 8 + s.length ∧ (writeBool b).length = 1 ∧
    (writeLocation l).length = 40 + l.uri.length := by
  have h8 : ∀ v, (writeInt v).length = 8 := fun v => leBytes_length 8 _
  refine ⟨h8 v, by simp [writeString, h8], by simp [writeBool], ?_⟩
  simp [writeLocation, writeString, writePosition, h8]; omega

/-! ## C02

For each kind: reading back the stored record of *any* representable symbol, followed by any bytes,
gives the symbol again, except for the fields named on the right-hand side, and stops exactly at
the end of the record. Where a user-visible field is lost there is a negation theorem. -/

/-- C02, classes: every persisted field survives. -/
theorem C02_class_round_trip (c : Class) (h : c.WF) (rest : Bytes) :
    readClass (c.serialise ++ rest) = some (c, rest) := by
  obtain ⟨h1, h2, h3, h4, h5, h6, h7, h8⟩ := h
  have : Reads readClass c.serialise c := by
    unfold Class.serialise
    simp only [List.append_assoc]
    exact Reads.bind (readLocation_reads _ h1) (Reads.bind (readLocation_reads _ h2)
      (Reads.bind (readInt_reads _) (Reads.bind (readString_reads _ h3)
      (Reads.bind (readTypeString_reads _ h4) (Reads.bind (readTypeString_reads _ h5)
      (Reads.bind (readManyTypes_reads _ h6) (Reads.bind (readManyTypes_reads _ h7)
      (Reads.map (readDeprecated_reads _ h8) rfl))))))))
  exact this rest

/-- C02, interfaces (the location of the reference is not a declared property of the symbol; it is
reset). -/
theorem C02_interface_round_trip (c : Interface) (h : c.WF) (rest : Bytes) :
    readInterface (c.serialise ++ rest) = some ({ c with refLocation := Location.zero }, rest) := by
  obtain ⟨h1, h2, h3, h4, h5⟩ := h
  have : Reads readInterface c.serialise { c with refLocation := Location.zero } := by
    unfold Interface.serialise
    simp only [List.append_assoc]
    exact Reads.bind (readLocation_reads _ h1) (Reads.bind (readTypeString_reads _ h3)
      (Reads.bind (readManyTypes_reads _ h4) (Reads.bind (readString_reads _ h2)
      (Reads.map (readDeprecated_reads _ h5) rfl))))
  exact this rest

/-- C02, traits. -/
theorem C02_trait_round_trip (c : Trait) (h : c.WF) (rest : Bytes) :
    readTrait (c.serialise ++ rest) = some (c, rest) := by
  have : Reads readTrait c.serialise c :=
    Reads.bind (readLocation_reads _ h.1) (Reads.map (readTypeString_reads _ h.2) rfl)
  exact this rest

/-- C02, functions: everything but the reference location and the parameters' descriptions. -/
theorem C02_function_round_trip_partial (c : Function) (h : c.WF) (rest : Bytes) :
    readFunction (c.serialise ++ rest) =
      some ({ c with refLocation := Location.zero,
                     params := c.params.map fun p => { p with description := [] } }, rest) := by
  obtain ⟨h1, h2, h3, h4, h5, h6⟩ := h
  have : Reads readFunction c.serialise { c with
      refLocation := Location.zero, params := c.params.map Parameter.stored } := by
    unfold Function.serialise
    simp only [List.append_assoc]
    exact Reads.bind (readLocation_reads _ h1) (Reads.bind (readTypeString_reads _ h2)
      (Reads.bind (readParameters_reads _ h3) (Reads.bind (readTypes_reads _ h4)
      (Reads.bind (readString_reads _ h5) (Reads.map (readDeprecated_reads _ h6) rfl)))))
  exact this rest

/-- C02, methods: everything but the reference location and the parameters' descriptions. -/
theorem C02_method_round_trip_partial (c : Method) (h : c.WF) (rest : Bytes) :
    readMethod (c.serialise ++ rest) =
      some ({ c with refLocation := Location.zero,
                     params := c.params.map fun p => { p with description := [] } }, rest) := by
  obtain ⟨h1, h2, h3, h4, h5, h6, h7⟩ := h
  have : Reads readMethod c.serialise { c with
      refLocation := Location.zero, params := c.params.map Parameter.stored } := by
    unfold Method.serialise
    simp only [List.append_assoc]
    exact Reads.bind (readLocation_reads _ h1) (Reads.bind (readString_reads _ h2)
      (Reads.bind (readParameters_reads _ h3) (Reads.bind (readTypes_reads _ h4)
      (Reads.bind (readString_reads _ h5) (Reads.bind (readTypeString_reads _ h6)
      (Reads.bind (readInt_reads _) (Reads.bind (readBool_reads _) (Reads.bind (readInt_reads _)
      (Reads.map (readDeprecated_reads _ h7) rfl)))))))))
  exact this rest

/-- C02, properties. -/
theorem C02_property_round_trip (c : Property) (h : c.WF) (rest : Bytes) :
    readProperty (c.serialise ++ rest) = some ({ c with refLocation := Location.zero }, rest) := by
  obtain ⟨h1, h2, h3, h4, h5, h6⟩ := h
  have : Reads readProperty c.serialise { c with refLocation := Location.zero } := by
    unfold Property.serialise
    simp only [List.append_assoc]
    exact Reads.bind (readLocation_reads _ h1) (Reads.bind (readString_reads _ h2)
      (Reads.bind (readTypeString_reads _ h3) (Reads.bind (readInt_reads _)
      (Reads.bind (readBool_reads _) (Reads.bind (readTypes_reads _ h4)
      (Reads.bind (readString_reads _ h5) (Reads.map (readDeprecated_reads _ h6) rfl)))))))
  exact this rest

/-- C02, constants and defines. -/
theorem C02_const_round_trip (c : Const) (h : c.WF) (rest : Bytes) :
    readConst (c.serialise ++ rest) = some (c, rest) := by
  obtain ⟨h1, h2, h3, h4, h5⟩ := h
  have : Reads readConst c.serialise c := by
    unfold Const.serialise
    simp only [List.append_assoc]
    exact Reads.bind (readLocation_reads _ h1) (Reads.bind (readString_reads _ h2)
      (Reads.bind (readDeprecated_reads _ h3) (Reads.bind (readTypeString_reads _ h4)
      (Reads.map (readString_reads _ h5) rfl))))
  exact this rest

/-- C02, class constants: the visibility is *not* kept, it always reads back as public. -/
theorem C02_classConst_round_trip_partial (c : ClassConst) (h : c.WF) (rest : Bytes) :
    readClassConst (c.serialise ++ rest) =
      some ({ c with refLocation := Location.zero, visibility := visPublic }, rest) := by
  obtain ⟨h1, h2, h3, h4, h5, h6⟩ := h
  have : Reads readClassConst c.serialise
      { c with refLocation := Location.zero, visibility := visPublic } := by
    unfold ClassConst.serialise
    simp only [List.append_assoc]
    exact Reads.bind (readLocation_reads _ h1) (Reads.bind (readString_reads _ h2)
      (Reads.bind (readString_reads _ h3) (Reads.bind (readString_reads _ h4)
      (Reads.bind (readTypeString_reads _ h5) (Reads.map (readDeprecated_reads _ h6) rfl)))))
  exact this rest

/-- C02, global variables. -/
theorem C02_globalVariable_round_trip (c : GlobalVariable) (h : c.WF) (rest : Bytes) :
    readGlobalVariable (c.serialise ++ rest) = some (c, rest) := by
  obtain ⟨h1, h2, h3, h4⟩ := h
  have : Reads readGlobalVariable c.serialise c := by
    unfold GlobalVariable.serialise
    simp only [List.append_assoc]
    exact Reads.bind (readLocation_reads _ h1) (Reads.bind (readTypes_reads _ h2)
      (Reads.bind (readString_reads _ h3) (Reads.map (readString_reads _ h4) rfl)))
  exact this rest

/-! Concrete, non-trivial values meeting the hypotheses. -/
def exLoc : Location := ⟨b!"file:///a.php", ⟨⟨1, 2⟩, ⟨3, 4⟩⟩⟩
def exType : TypeString := ⟨b!"\\Foo", b!"Foo", 1⟩
def exTag : Tag := ⟨b!"@deprecated", b!"1.2", b!"use Bar", [], false⟩
def exParam : Parameter := ⟨exLoc, exLoc, b!"the first", true, b!"$a", [exType, exType], b!"1"⟩
def exClass : Class := ⟨exLoc, exLoc, 1, b!"A class", exType, exType, [exType], [exType], some exTag⟩
def exMethod : Method :=
  ⟨exLoc, exLoc, b!"run", [exParam], [exType], b!"desc", exType, visPrivate, true, 0, some exTag⟩
def exFunction : Function := ⟨exLoc, exLoc, exType, [exParam, exParam], [exType], b!"d", none⟩
def exClassConst : ClassConst :=
  ⟨exLoc, exLoc, b!"d", b!"FOO", b!"1", exType, visPrivate, some exTag⟩

theorem exLoc_wf : exLoc.WF := by simp [Location.WF, Str, exLoc]
theorem exType_wf : exType.WF := by simp [TypeString.WF, Str, exType]
theorem exTag_wf : exTag.WF := by simp [Tag.WF, Str, exTag]
theorem exParam_wf : exParam.WF := by
  refine ⟨exLoc_wf, exLoc_wf, by simp [Str, exParam], ⟨by simp [exParam], ?_⟩, by simp [Str, exParam]⟩
  intro x hx; simp [exParam] at hx; subst hx; exact exType_wf
theorem one_wf {α} {wf : α → Prop} {x : α} (h : wf x) : ListWF wf [x] :=
  ⟨by simp, by simpa using h⟩
example : exClass.WF :=
  ⟨exLoc_wf, exLoc_wf, by simp [Str, exClass], exType_wf, exType_wf, one_wf exType_wf,
    one_wf exType_wf, exTag_wf⟩
theorem exMethod_wf : exMethod.WF :=
  ⟨exLoc_wf, by simp [Str, exMethod], one_wf exParam_wf, one_wf exType_wf,
    by simp [Str, exMethod], exType_wf, exTag_wf⟩
theorem exFunction_wf : exFunction.WF :=
  ⟨exLoc_wf, exType_wf, ⟨by simp [exFunction], by simp [exFunction]; exact exParam_wf⟩,
    one_wf exType_wf, by simp [Str, exFunction], trivial⟩
theorem exClassConst_wf : exClassConst.WF :=
  ⟨exLoc_wf, by simp [Str, exClassConst], by simp [Str, exClassConst], by simp [Str, exClassConst],
    exType_wf, exTag_wf⟩
example : ∃ c : Interface, c.WF ∧ c.extends_ ≠ [] ∧ c.deprecated ≠ none :=
  ⟨⟨exLoc, exLoc, b!"d", some exTag, exType, [exType]⟩, ⟨exLoc_wf, by simp [Str], exType_wf,
    one_wf exType_wf, exTag_wf⟩, by simp, by simp⟩
example : ∃ c : Property, c.WF ∧ c.types ≠ [] ∧ c.visibility = visPrivate :=
  ⟨⟨exLoc, exLoc, b!"d", some exTag, b!"$p", exType, visPrivate, false, [exType]⟩,
    ⟨exLoc_wf, by simp [Str], exType_wf, one_wf exType_wf, by simp [Str], exTag_wf⟩, by simp, rfl⟩

/-- C02 is false for class constants: the full statement ("loaded again with the same modifiers")
fails for a private constant. -/
theorem C02_false_classConst_visibility :
    ¬ ∀ c : ClassConst, c.WF →
        (readClassConst c.serialise).map (fun r => r.1.visibility) = some c.visibility := by
  intro h
  have h1 := h exClassConst exClassConst_wf
  have h2 := C02_classConst_round_trip_partial exClassConst exClassConst_wf []
  rw [List.append_nil] at h2
  rw [h2] at h1
  revert h1; decide

/-- Stronger: *no* class constant that is not public ever keeps its visibility. -/
theorem C02_false_classConst_visibility_always (c : ClassConst) (h : c.WF)
    (hv : c.visibility ≠ visPublic) :
    (readClassConst c.serialise).map (fun r => r.1.visibility) ≠ some c.visibility := by
  have h2 := C02_classConst_round_trip_partial c h []
  rw [List.append_nil] at h2
  rw [h2]
  simpa using hv.symm

/-- C02 is false for parameter descriptions: they are lost when a function is stored. -/
theorem C02_false_parameter_description :
    ¬ ∀ f : Function, f.WF → (readFunction f.serialise).map (fun r => r.1.params) = some f.params := by
  intro h
  have h1 := h exFunction exFunction_wf
  have h2 := C02_function_round_trip_partial exFunction exFunction_wf []
  rw [List.append_nil] at h2
  rw [h2] at h1
  revert h1; decide

/-! ## C03 -/

/-- C03: every strict prefix of a class record is rejected (the decoder panics rather than return
a symbol). -/
theorem C03_class_truncated (c : Class) (h : c.WF) (p : Bytes) (hp : p <+: c.serialise)
    (hne : p ≠ c.serialise) : readClass p = none :=
  truncated_none readClass_framed (fun r => C02_class_round_trip c h r) hp hne
theorem C03_interface_truncated (c : Interface) (h : c.WF) (p : Bytes) (hp : p <+: c.serialise)
    (hne : p ≠ c.serialise) : readInterface p = none :=
  truncated_none readInterface_framed (fun r => C02_interface_round_trip c h r) hp hne
theorem C03_trait_truncated (c : Trait) (h : c.WF) (p : Bytes) (hp : p <+: c.serialise)
    (hne : p ≠ c.serialise) : readTrait p = none :=
  truncated_none readTrait_framed (fun r => C02_trait_round_trip c h r) hp hne
theorem C03_function_truncated (c : Function) (h : c.WF) (p : Bytes) (hp : p <+: c.serialise)
    (hne : p ≠ c.serialise) : readFunction p = none :=
  truncated_none readFunction_framed (fun r => C02_function_round_trip_partial c h r) hp hne
theorem C03_method_truncated (c : Method) (h : c.WF) (p : Bytes) (hp : p <+: c.serialise)
    (hne : p ≠ c.serialise) : readMethod p = none :=
  truncated_none readMethod_framed (fun r => C02_method_round_trip_partial c h r) hp hne
theorem C03_property_truncated (c : Property) (h : c.WF) (p : Bytes) (hp : p <+: c.serialise)
    (hne : p ≠ c.serialise) : readProperty p = none :=
  truncated_none readProperty_framed (fun r => C02_property_round_trip c h r) hp hne
theorem C03_const_truncated (c : Const) (h : c.WF) (p : Bytes) (hp : p <+: c.serialise)
    (hne : p ≠ c.serialise) : readConst p = none :=
  truncated_none readConst_framed (fun r => C02_const_round_trip c h r) hp hne
theorem C03_classConst_truncated (c : ClassConst) (h : c.WF) (p : Bytes) (hp : p <+: c.serialise)
    (hne : p ≠ c.serialise) : readClassConst p = none :=
  truncated_none readClassConst_framed (fun r => C02_classConst_round_trip_partial c h r) hp hne
theorem C03_globalVariable_truncated (c : GlobalVariable) (h : c.WF) (p : Bytes)
    (hp : p <+: c.serialise) (hne : p ≠ c.serialise) : readGlobalVariable p = none :=
  truncated_none readGlobalVariable_framed (fun r => C02_globalVariable_round_trip c h r) hp hne

/-- A non-trivial truncation: all but the last byte of a method record. -/
example : exMethod.serialise.dropLast <+: exMethod.serialise ∧
    exMethod.serialise.dropLast ≠ exMethod.serialise :=
  ⟨List.dropLast_prefix _, by
    have : 0 < exMethod.serialise.length := by
      simp [Method.serialise, writeLocation, writeString, writeInt, leBytes_length]
      omega
    intro h
    have := congrArg List.length h
    rw [List.length_dropLast] at this
    omega⟩

end Verif.Encoding
