import Mathlib.Data.Nat.Notation

/-!
# The tabulated partition schemes

Generated by `tools/gen_tables.py` from `/repo/zones_convolver/PartitionSchemes.cpp` (lines 5-695); each
definition cites the lines of its table.
-/

namespace Zones.Model

/-- `PartitionLayout` (util/Partitioning.h:8-17). -/
structure Layout where
  psb : ℕ
  np : ℕ
deriving DecidableEq, Repr

/-- `PartitionScheme` (util/Partitioning.h:19-23). -/
structure Scheme where
  ir : ℕ
  layout : List Layout
deriving DecidableEq, Repr

/-- `kGarciaResults16` (PartitionSchemes.cpp:5-83). -/
def garcia16 : List Scheme :=
  [⟨32, [⟨1, 2⟩]⟩,
   ⟨64, [⟨1, 4⟩]⟩,
   ⟨128, [⟨1, 8⟩]⟩,
   ⟨256, [⟨1, 16⟩]⟩,
   ⟨512, [⟨1, 8⟩, ⟨4, 6⟩]⟩,
   ⟨1024, [⟨1, 8⟩, ⟨4, 14⟩]⟩,
   ⟨2048, [⟨1, 16⟩, ⟨8, 14⟩]⟩,
   ⟨4096, [⟨1, 8⟩, ⟨4, 6⟩, ⟨16, 14⟩]⟩,
   ⟨8192, [⟨1, 8⟩, ⟨4, 14⟩, ⟨32, 14⟩]⟩,
   ⟨16384, [⟨1, 16⟩, ⟨8, 14⟩, ⟨64, 14⟩]⟩,
   ⟨32768, [⟨1, 8⟩, ⟨4, 6⟩, ⟨16, 14⟩, ⟨128, 14⟩]⟩]

/-- `kGarciaResults32` (PartitionSchemes.cpp:84-162). -/
def garcia32 : List Scheme :=
  [⟨64, [⟨1, 2⟩]⟩,
   ⟨128, [⟨1, 4⟩]⟩,
   ⟨256, [⟨1, 8⟩]⟩,
   ⟨512, [⟨1, 16⟩]⟩,
   ⟨1024, [⟨1, 8⟩, ⟨4, 6⟩]⟩,
   ⟨2048, [⟨1, 8⟩, ⟨4, 14⟩]⟩,
   ⟨4096, [⟨1, 16⟩, ⟨8, 14⟩]⟩,
   ⟨8192, [⟨1, 8⟩, ⟨4, 6⟩, ⟨16, 14⟩]⟩,
   ⟨16384, [⟨1, 8⟩, ⟨4, 14⟩, ⟨32, 14⟩]⟩,
   ⟨32768, [⟨1, 16⟩, ⟨8, 14⟩, ⟨64, 14⟩]⟩,
   ⟨65536, [⟨1, 8⟩, ⟨4, 6⟩, ⟨16, 14⟩, ⟨128, 14⟩]⟩]

/-- `kGarciaResults64` (PartitionSchemes.cpp:163-240). -/
def garcia64 : List Scheme :=
  [⟨128, [⟨1, 2⟩]⟩,
   ⟨256, [⟨1, 4⟩]⟩,
   ⟨512, [⟨1, 8⟩]⟩,
   ⟨1024, [⟨1, 16⟩]⟩,
   ⟨2048, [⟨1, 8⟩, ⟨4, 6⟩]⟩,
   ⟨4096, [⟨1, 8⟩, ⟨4, 14⟩]⟩,
   ⟨8192, [⟨1, 16⟩, ⟨8, 14⟩]⟩,
   ⟨16384, [⟨1, 8⟩, ⟨4, 6⟩, ⟨16, 14⟩]⟩,
   ⟨32768, [⟨1, 8⟩, ⟨4, 14⟩, ⟨32, 14⟩]⟩,
   ⟨65536, [⟨1, 16⟩, ⟨8, 14⟩, ⟨64, 14⟩]⟩,
   ⟨131072, [⟨1, 16⟩, ⟨8, 14⟩, ⟨64, 30⟩]⟩]

/-- `kGarciaResults128` (PartitionSchemes.cpp:241-317). -/
def garcia128 : List Scheme :=
  [⟨256, [⟨1, 2⟩]⟩,
   ⟨512, [⟨1, 4⟩]⟩,
   ⟨1024, [⟨1, 8⟩]⟩,
   ⟨2048, [⟨1, 16⟩]⟩,
   ⟨4096, [⟨1, 8⟩, ⟨4, 6⟩]⟩,
   ⟨8192, [⟨1, 8⟩, ⟨4, 14⟩]⟩,
   ⟨16384, [⟨1, 16⟩, ⟨8, 14⟩]⟩,
   ⟨32768, [⟨1, 16⟩, ⟨8, 30⟩]⟩,
   ⟨65536, [⟨1, 8⟩, ⟨4, 14⟩, ⟨32, 14⟩]⟩,
   ⟨131072, [⟨1, 16⟩, ⟨8, 14⟩, ⟨64, 14⟩]⟩,
   ⟨262144, [⟨1, 16⟩, ⟨8, 14⟩, ⟨64, 30⟩]⟩]

/-- `kGarciaResults256` (PartitionSchemes.cpp:318-393). -/
def garcia256 : List Scheme :=
  [⟨512, [⟨1, 2⟩]⟩,
   ⟨1024, [⟨1, 4⟩]⟩,
   ⟨2048, [⟨1, 8⟩]⟩,
   ⟨4096, [⟨1, 16⟩]⟩,
   ⟨8192, [⟨1, 32⟩]⟩,
   ⟨16384, [⟨1, 8⟩, ⟨4, 14⟩]⟩,
   ⟨32768, [⟨1, 16⟩, ⟨8, 14⟩]⟩,
   ⟨65536, [⟨1, 16⟩, ⟨8, 30⟩]⟩,
   ⟨131072, [⟨1, 8⟩, ⟨4, 14⟩, ⟨32, 14⟩]⟩,
   ⟨262144, [⟨1, 16⟩, ⟨8, 14⟩, ⟨64, 14⟩]⟩,
   ⟨524288, [⟨1, 16⟩, ⟨8, 14⟩, ⟨64, 30⟩]⟩]

/-- `kGarciaResults512` (PartitionSchemes.cpp:394-469). -/
def garcia512 : List Scheme :=
  [⟨1024, [⟨1, 2⟩]⟩,
   ⟨2048, [⟨1, 4⟩]⟩,
   ⟨4096, [⟨1, 8⟩]⟩,
   ⟨8192, [⟨1, 16⟩]⟩,
   ⟨16384, [⟨1, 32⟩]⟩,
   ⟨32768, [⟨1, 8⟩, ⟨4, 14⟩]⟩,
   ⟨65536, [⟨1, 16⟩, ⟨8, 14⟩]⟩,
   ⟨131072, [⟨1, 16⟩, ⟨8, 30⟩]⟩,
   ⟨262144, [⟨1, 8⟩, ⟨4, 14⟩, ⟨32, 14⟩]⟩,
   ⟨524288, [⟨1, 16⟩, ⟨8, 14⟩, ⟨64, 14⟩]⟩,
   ⟨1048576, [⟨1, 16⟩, ⟨8, 14⟩, ⟨64, 30⟩]⟩]

/-- `kGarciaResults1024` (PartitionSchemes.cpp:470-545). -/
def garcia1024 : List Scheme :=
  [⟨2048, [⟨1, 2⟩]⟩,
   ⟨4096, [⟨1, 4⟩]⟩,
   ⟨8192, [⟨1, 8⟩]⟩,
   ⟨16384, [⟨1, 16⟩]⟩,
   ⟨32768, [⟨1, 32⟩]⟩,
   ⟨65536, [⟨1, 8⟩, ⟨4, 14⟩]⟩,
   ⟨131072, [⟨1, 16⟩, ⟨8, 14⟩]⟩,
   ⟨262144, [⟨1, 16⟩, ⟨8, 30⟩]⟩,
   ⟨524288, [⟨1, 8⟩, ⟨4, 14⟩, ⟨32, 14⟩]⟩,
   ⟨1048576, [⟨1, 16⟩, ⟨8, 14⟩, ⟨64, 14⟩]⟩,
   ⟨2097152, [⟨1, 16⟩, ⟨8, 14⟩, ⟨64, 30⟩]⟩]

/-- `kGarciaResults2048` (PartitionSchemes.cpp:546-621). -/
def garcia2048 : List Scheme :=
  [⟨4096, [⟨1, 2⟩]⟩,
   ⟨8192, [⟨1, 4⟩]⟩,
   ⟨16384, [⟨1, 8⟩]⟩,
   ⟨32768, [⟨1, 16⟩]⟩,
   ⟨65536, [⟨1, 32⟩]⟩,
   ⟨131072, [⟨1, 8⟩, ⟨4, 14⟩]⟩,
   ⟨262144, [⟨1, 16⟩, ⟨8, 14⟩]⟩,
   ⟨524288, [⟨1, 16⟩, ⟨8, 30⟩]⟩,
   ⟨1048576, [⟨1, 8⟩, ⟨4, 14⟩, ⟨32, 14⟩]⟩,
   ⟨2097152, [⟨1, 16⟩, ⟨8, 14⟩, ⟨64, 14⟩]⟩,
   ⟨4194304, [⟨1, 16⟩, ⟨8, 14⟩, ⟨64, 30⟩]⟩]

/-- `kGarciaResults4096` (PartitionSchemes.cpp:622-696). -/
def garcia4096 : List Scheme :=
  [⟨8192, [⟨1, 2⟩]⟩,
   ⟨16384, [⟨1, 4⟩]⟩,
   ⟨32768, [⟨1, 8⟩]⟩,
   ⟨65536, [⟨1, 16⟩]⟩,
   ⟨131072, [⟨1, 32⟩]⟩,
   ⟨262144, [⟨1, 8⟩, ⟨4, 14⟩]⟩,
   ⟨524288, [⟨1, 16⟩, ⟨8, 14⟩]⟩,
   ⟨1048576, [⟨1, 16⟩, ⟨8, 30⟩]⟩,
   ⟨2097152, [⟨1, 32⟩, ⟨16, 30⟩]⟩,
   ⟨4194304, [⟨1, 16⟩, ⟨8, 14⟩, ⟨64, 14⟩]⟩,
   ⟨8388608, [⟨1, 16⟩, ⟨8, 14⟩, ⟨64, 30⟩]⟩]

/-- `kGarciaResults` (PartitionSchemes.h:17-27): block size to table. -/
def kGarciaResults : List (ℕ × List Scheme) :=
  [(16, garcia16), (32, garcia32), (64, garcia64), (128, garcia128), (256, garcia256), (512, garcia512), (1024, garcia1024), (2048, garcia2048), (4096, garcia4096)]

end Zones.Model
