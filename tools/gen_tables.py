#!/usr/bin/env python3
"""Regenerates /verif/lean/Verif/Model/PartitionTables.lean from /repo/zones_convolver/PartitionSchemes.cpp."""
import re
lines = open('/repo/zones_convolver/PartitionSchemes.cpp').read().split('\n')
out = ['''import Mathlib.Data.Nat.Notation

/-!
# The tabulated partition schemes

Generated by `tools/gen_tables.py` from `/repo/zones_convolver/PartitionSchemes.cpp` (lines 5-695); each
definition cites the lines of its table.
-/

namespace Zones.Model

/-- `PartitionLayout` (util/Partitioning.h:8-17). -/
structure Layout where
  psb : ℕ
  np : ℕ
deriving DecidableEq, Repr

/-- `PartitionScheme` (util/Partitioning.h:19-23). -/
structure Scheme where
  ir : ℕ
  layout : List Layout
deriving DecidableEq, Repr
''']
i = 0
sizes = []
while i < len(lines):
    m = re.match(r'const std::vector<PartitionScheme> kGarciaResults(\d+) \{', lines[i])
    if not m:
        i += 1
        continue
    j = i
    while lines[j] != '};':
        j += 1
    body = '\n'.join(lines[i:j])
    rows = []
    for r in re.finditer(r'ir_size_samples = (\d+),(.*?)(?=PartitionScheme \{|\Z)', body, re.S):
        lay = re.findall(r'partition_size_blocks = (\d+), .num_partitions = (\d+)', r.group(2))
        rows.append('⟨%s, [%s]⟩' % (r.group(1), ', '.join('⟨%s, %s⟩' % l for l in lay)))
    n = m.group(1)
    sizes.append(n)
    out.append('/-- `kGarciaResults%s` (PartitionSchemes.cpp:%d-%d). -/\ndef garcia%s : List Scheme :=\n  [%s]\n'
               % (n, i + 1, j + 1, n, ',\n   '.join(rows)))
    i = j
out.append('/-- `kGarciaResults` (PartitionSchemes.h:17-27): block size to table. -/\n'
           'def kGarciaResults : List (ℕ × List Scheme) :=\n  [%s]\n' % ', '.join('(%s, garcia%s)' % (n, n) for n in sizes))
out.append('end Zones.Model\n')
open('/verif/lean/Verif/Model/PartitionTables.lean', 'w').write('\n'.join(out))
