import Verif.Encoding.Spec

namespace Verif.Encoding

/-- `d` reads exactly the bytes `e` and yields `v`, whatever follows. -/
def Reads {α} (d : Dec α) (e : Bytes) (v : α) : Prop := ∀ rest, d (e ++ rest) = some (v, rest)

theorem bind_run {α β} (d : Dec α) (f : α → Dec β) (buf : Bytes) :
    (d >>= f) buf = (d buf).bind (fun p => f p.1 p.2) := by
  show (StateT.bind d f) buf = _
  unfold StateT.bind
  cases d buf <;> rfl

theorem pure_run {α} (a : α) (buf : Bytes) : (pure a : Dec α) buf = some (a, buf) := rfl

theorem Reads.pure {α} (v : α) : Reads (Pure.pure v) [] v := fun _ => rfl

theorem Reads.bind {α β} {d : Dec α} {f : α → Dec β} {e e' : Bytes} {v : α} {w : β}
    (h : Reads d e v) (h' : Reads (f v) e' w) : Reads (d >>= f) (e ++ e') w := by
  intro rest
  rw [bind_run, List.append_assoc, h]
  exact h' rest

/-- last step of a reader: `return g v`. -/
theorem Reads.map {α β} {d : Dec α} {f : α → Dec β} {e : Bytes} {v : α} {w : β}
    (h : Reads d e v) (h' : f v = Pure.pure w) : Reads (d >>= f) e w := by
  intro rest
  rw [bind_run, h]
  show f v rest = _
  rw [h']; rfl

theorem leBytes_length (n v : Nat) : (leBytes n v).length = n := by
  induction n generalizing v with
  | zero => rfl
  | succ n ih => simp [leBytes, ih]

theorem leNat_leBytes (n v : Nat) : leNat (leBytes n v) = v % 256 ^ n := by
  induction n generalizing v with
  | zero => simp [leBytes, leNat, Nat.mod_one]
  | succ n ih =>
    have h8 : (UInt8.ofNat (v % 256)).toNat = v % 256 := by
      simp [UInt8.toNat_ofNat']
    simp only [leBytes, leNat, ih, h8]
    rw [Nat.pow_succ, Nat.mul_comm (256 ^ n) 256, Nat.mod_mul]

theorem takeN_reads (n : Nat) (e : Bytes) (h : e.length = n) : Reads (takeN n) e e := by
  intro rest
  simp [takeN, ← h]

theorem readInt_reads (v : GoInt) : Reads readInt (writeInt v) v := by
  refine Reads.map (takeN_reads 8 _ (leBytes_length _ _)) ?_
  have : BitVec.toNat v < 256 ^ 8 := by have := v.isLt; simpa using this
  rw [writeInt, leNat_leBytes, Nat.mod_eq_of_lt this]
  rw [BitVec.ofNat_toNat, BitVec.setWidth_eq]

theorem readUInt64_reads (v : BitVec 64) : Reads readUInt64 (writeUInt64 v) v := by
  refine Reads.map (takeN_reads 8 _ (leBytes_length _ _)) ?_
  have : BitVec.toNat v < 256 ^ 8 := by have := v.isLt; simpa using this
  rw [writeUInt64, leNat_leBytes, Nat.mod_eq_of_lt this]
  rw [BitVec.ofNat_toNat, BitVec.setWidth_eq]

theorem readUInt32_reads (v : BitVec 32) : Reads readUInt32 (writeUInt32 v) v := by
  refine Reads.map (takeN_reads 4 _ (leBytes_length _ _)) ?_
  have : BitVec.toNat v < 256 ^ 4 := by have := v.isLt; simpa using this
  rw [writeUInt32, leNat_leBytes, Nat.mod_eq_of_lt this]
  rw [BitVec.ofNat_toNat, BitVec.setWidth_eq]

theorem ofNat64_toInt (n : Nat) (h : n < 2 ^ 63) : (BitVec.ofNat 64 n).toInt = (n : Int) := by
  rw [BitVec.toInt_eq_toNat_cond, BitVec.toNat_ofNat, Nat.mod_eq_of_lt (by omega)]
  split <;> omega

theorem readString_reads (s : Bytes) (h : Str s) : Reads readString (writeString s) s := by
  unfold readString writeString
  refine Reads.bind (readInt_reads _) ?_
  rw [ofNat64_toInt _ h]
  have : ¬ ((s.length : Int) < 0) := by omega
  simp only [this, if_false]
  exact takeN_reads _ _ (by simp)

theorem readBool_reads (b : Bool) : Reads readBool (writeBool b) b := by
  refine Reads.map (takeN_reads 1 _ rfl) ?_
  cases b <;> rfl

theorem readPosition_reads (p : Position) : Reads readPosition (writePosition p) p :=
  Reads.bind (readInt_reads _) (Reads.map (readInt_reads _) rfl)

theorem readLocation_reads (l : Location) (h : l.WF) : Reads readLocation (writeLocation l) l := by
  unfold writeLocation
  rw [List.append_assoc]
  exact Reads.bind (readString_reads _ h)
    (Reads.bind (readPosition_reads _) (Reads.map (readPosition_reads _) rfl))

theorem readLoop_reads {α} (r : Dec α) (w : α → Bytes) (g : α → α) (xs : List α)
    (h : ∀ x ∈ xs, Reads r (w x) (g x)) : Reads (readLoop r xs.length) (xs.flatMap w) (xs.map g) := by
  induction xs with
  | nil => exact Reads.pure []
  | cons x xs ih =>
    simp only [List.length_cons, readLoop, List.flatMap_cons, List.map_cons]
    exact Reads.bind (h x (by simp)) (Reads.map (ih fun y hy => h y (by simp [hy])) rfl)

theorem readMany_reads {α} (r : Dec α) (w : α → Bytes) (g : α → α) (wf : α → Prop) (xs : List α)
    (h : ∀ x, wf x → Reads r (w x) (g x)) (hx : ListWF wf xs) :
    Reads (readMany r) (writeMany w xs) (xs.map g) := by
  unfold readMany writeMany
  refine Reads.bind (readInt_reads _) ?_
  rw [ofNat64_toInt _ hx.1]
  exact readLoop_reads r w g xs (fun x m => h x (hx.2 x m))

theorem readTypeString_reads (t : TypeString) (h : t.WF) : Reads readTypeString t.write t := by
  unfold TypeString.write
  rw [List.append_assoc]
  exact Reads.bind (readString_reads _ h.1)
    (Reads.bind (readString_reads _ h.2) (Reads.map (readInt_reads _) rfl))

theorem readTypes_reads (t : TypeComposite) (h : Types.WF t) : Reads readTypes (writeTypes t) t := by
  have := readMany_reads readTypeString TypeString.write id TypeString.WF t readTypeString_reads h
  rwa [List.map_id] at this

theorem readManyTypes_reads (t : TypeComposite) (h : Types.WF t) :
    Reads (readMany readTypeString) (writeMany TypeString.write t) t := readTypes_reads t h

theorem readDeprecated_reads (t : Option Tag) (h : DeprecatedWF t) :
    Reads readDeprecated (writeDeprecated t) t := by
  cases t with
  | none => exact Reads.map (readBool_reads false) rfl
  | some t =>
    obtain ⟨h1, h2, h3, h4, h5⟩ := h
    show Reads readDeprecated (writeBool true ++ writeString t.name ++ writeString t.description) _
    rw [List.append_assoc]
    refine Reads.bind (readBool_reads true) ?_
    simp only [if_true]
    refine Reads.bind (readString_reads _ h1) (Reads.map (readString_reads _ h2) ?_)
    cases t; simp_all

/-- what survives of a parameter -/
def Parameter.stored (p : Parameter) : Parameter := { p with description := [] }

theorem readParameter_reads (p : Parameter) (h : p.WF) :
    Reads readParameter p.write p.stored := by
  obtain ⟨h1, h2, h3, h4, h5⟩ := h
  unfold Parameter.write
  simp only [List.append_assoc]
  exact Reads.bind (readLocation_reads _ h1) (Reads.bind (readLocation_reads _ h2)
    (Reads.bind (readBool_reads _) (Reads.bind (readString_reads _ h3)
    (Reads.bind (readTypes_reads _ h4) (Reads.map (readString_reads _ h5) rfl)))))

theorem readParameters_reads (ps : List Parameter) (h : ListWF Parameter.WF ps) :
    Reads (readMany readParameter) (writeMany Parameter.write ps) (ps.map Parameter.stored) :=
  readMany_reads _ _ _ Parameter.WF ps readParameter_reads h

/-! ### Framing: a decoder that succeeds is not affected by further bytes -/

def Framed {α} (d : Dec α) : Prop :=
  ∀ buf v r, d buf = some (v, r) → ∀ ext, d (buf ++ ext) = some (v, r ++ ext)

theorem Framed.pure {α} (v : α) : Framed (Pure.pure v : Dec α) := by
  intro buf v' r h ext
  rw [pure_run] at *
  cases h; rfl

theorem Framed.bind {α β} {d : Dec α} {f : α → Dec β} (h : Framed d) (hf : ∀ a, Framed (f a)) :
    Framed (d >>= f) := by
  intro buf v r hb ext
  rw [bind_run] at *
  cases hd : d buf with
  | none => rw [hd] at hb; cases hb
  | some p =>
    obtain ⟨a, s⟩ := p
    rw [hd] at hb
    rw [h buf a s hd ext]
    exact hf a s v r hb ext

theorem Framed.failure {α} : Framed (failure : Dec α) := by
  intro buf v r h; cases h

theorem takeN_framed (n : Nat) : Framed (takeN n) := by
  intro buf v r h ext
  unfold takeN at *
  by_cases hl : buf.length < n
  · simp [hl] at h
  · simp only [hl, if_false, Option.some.injEq, Prod.mk.injEq] at h
    have : ¬ (buf ++ ext).length < n := by simp; omega
    simp only [this, if_false, Option.some.injEq, Prod.mk.injEq]
    rw [List.take_append_of_le_length (by omega), List.drop_append_of_le_length (by omega)]
    exact ⟨h.1, by rw [h.2]⟩

theorem readInt_framed : Framed readInt := (takeN_framed 8).bind fun _ => .pure _
theorem readUInt64_framed : Framed readUInt64 := (takeN_framed 8).bind fun _ => .pure _
theorem readUInt32_framed : Framed readUInt32 := (takeN_framed 4).bind fun _ => .pure _
theorem readString_framed : Framed readString :=
  readInt_framed.bind fun len => by
    split
    · exact .failure
    · exact takeN_framed _
theorem readBool_framed : Framed readBool := (takeN_framed 1).bind fun _ => .pure _
theorem readPosition_framed : Framed readPosition :=
  readInt_framed.bind fun _ => readInt_framed.bind fun _ => .pure _
theorem readLocation_framed : Framed readLocation :=
  readString_framed.bind fun _ => readPosition_framed.bind fun _ =>
    readPosition_framed.bind fun _ => .pure _
theorem readLoop_framed {α} {r : Dec α} (h : Framed r) (n : Nat) : Framed (readLoop r n) := by
  induction n with
  | zero => exact .pure _
  | succ n ih => exact h.bind fun _ => ih.bind fun _ => .pure _
theorem readMany_framed {α} {r : Dec α} (h : Framed r) : Framed (readMany r) :=
  readInt_framed.bind fun _ => readLoop_framed h _
theorem readTypeString_framed : Framed readTypeString :=
  readString_framed.bind fun _ => readString_framed.bind fun _ => readInt_framed.bind fun _ => .pure _
theorem readTypes_framed : Framed readTypes := readMany_framed readTypeString_framed
theorem readDeprecated_framed : Framed readDeprecated :=
  readBool_framed.bind fun b => by
    cases b
    · exact .pure _
    · exact readString_framed.bind fun _ => readString_framed.bind fun _ => .pure _
theorem readParameter_framed : Framed readParameter :=
  readLocation_framed.bind fun _ => readLocation_framed.bind fun _ => readBool_framed.bind fun _ =>
    readString_framed.bind fun _ => readTypes_framed.bind fun _ => readString_framed.bind fun _ =>
    .pure _
theorem readClass_framed : Framed readClass :=
  readLocation_framed.bind fun _ => readLocation_framed.bind fun _ => readInt_framed.bind fun _ =>
    readString_framed.bind fun _ => readTypeString_framed.bind fun _ =>
    readTypeString_framed.bind fun _ => (readMany_framed readTypeString_framed).bind fun _ =>
    (readMany_framed readTypeString_framed).bind fun _ => readDeprecated_framed.bind fun _ => .pure _
theorem readInterface_framed : Framed readInterface :=
  readLocation_framed.bind fun _ => readTypeString_framed.bind fun _ =>
    (readMany_framed readTypeString_framed).bind fun _ => readString_framed.bind fun _ =>
    readDeprecated_framed.bind fun _ => .pure _
theorem readTrait_framed : Framed readTrait :=
  readLocation_framed.bind fun _ => readTypeString_framed.bind fun _ => .pure _
theorem readFunction_framed : Framed readFunction :=
  readLocation_framed.bind fun _ => readTypeString_framed.bind fun _ =>
    (readMany_framed readParameter_framed).bind fun _ => readTypes_framed.bind fun _ =>
    readString_framed.bind fun _ => readDeprecated_framed.bind fun _ => .pure _
theorem readMethod_framed : Framed readMethod :=
  readLocation_framed.bind fun _ => readString_framed.bind fun _ =>
    (readMany_framed readParameter_framed).bind fun _ => readTypes_framed.bind fun _ =>
    readString_framed.bind fun _ => readTypeString_framed.bind fun _ => readInt_framed.bind fun _ =>
    readBool_framed.bind fun _ => readInt_framed.bind fun _ => readDeprecated_framed.bind fun _ =>
    .pure _
theorem readProperty_framed : Framed readProperty :=
  readLocation_framed.bind fun _ => readString_framed.bind fun _ =>
    readTypeString_framed.bind fun _ => readInt_framed.bind fun _ => readBool_framed.bind fun _ =>
    readTypes_framed.bind fun _ => readString_framed.bind fun _ =>
    readDeprecated_framed.bind fun _ => .pure _
theorem readConst_framed : Framed readConst :=
  readLocation_framed.bind fun _ => readString_framed.bind fun _ =>
    readDeprecated_framed.bind fun _ => readTypeString_framed.bind fun _ =>
    readString_framed.bind fun _ => .pure _
theorem readClassConst_framed : Framed readClassConst :=
  readLocation_framed.bind fun _ => readString_framed.bind fun _ => readString_framed.bind fun _ =>
    readString_framed.bind fun _ => readTypeString_framed.bind fun _ =>
    readDeprecated_framed.bind fun _ => .pure _
theorem readGlobalVariable_framed : Framed readGlobalVariable :=
  readLocation_framed.bind fun _ => readTypes_framed.bind fun _ => readString_framed.bind fun _ =>
    readString_framed.bind fun _ => .pure _

/-- A framed decoder that reads a record exactly rejects every strict prefix of the record. -/
theorem truncated_none {α} {d : Dec α} {e : Bytes} {v : α} (hf : Framed d) (hr : Reads d e v)
    {p : Bytes} (hp : p <+: e) (hne : p ≠ e) : d p = none := by
  cases hd : d p with
  | none => rfl
  | some q =>
    obtain ⟨v', r⟩ := q
    obtain ⟨ext, rfl⟩ := hp
    have h1 := hf p v' r hd ext
    have h2 := hr []
    rw [List.append_nil] at h2
    rw [h2] at h1
    simp only [Option.some.injEq, Prod.mk.injEq] at h1
    have : ext = [] := by
      have := h1.2.symm
      simp at this
      exact this.2
    exact absurd (by rw [this, List.append_nil]) hne

end Verif.Encoding
