import Verif.Model.Parser

/-!
# Reference tables of the repository

Generated by `tools/gen_golden.py` from `/repo/test/bnftablegen/*.bin`: the tables the real
`FromGrammar` printed (`%#v`) when the reference files were recorded.
-/

namespace LL1.Golden

/-- `refTestLinearMultiRuleGrammarToParsingTableResTable.bin` -/
def linearMultiRuleTable : Table := [
  (0, [(65, [.terminal b!"A", .terminal b!"::=", .nonTerminal 1])]),
  (1, [(67, [.terminal b!"C"])])]

/-- `refTestOrGrammarToParsingTableResTable.bin` -/
def orTable : Table := [
  (0, [(34, [.terminal b!"\"", .nonTerminal 1, .terminal b!"^"])]),
  (1, [(66, [.terminal b!"B"]), (67, [.terminal b!"C"]), (94, [])])]

/-- `refTestResolvedLRecursiveGrammarToParsingTableResTable.bin` -/
def resolvedLRecursiveTable : Table := [
  (0, [(95, [.terminal b!"_", .nonTerminal 1])]),
  (1, [(0, []), (66, [.terminal b!"B", .nonTerminal 1])])]

/-- `refTestBNFGrammarToParsingTableResTable.bin` -/
def selfTable : Table := [
  (0, [(32, [.nonTerminal 24, .nonTerminal 4, .nonTerminal 1]),
    (60, [.nonTerminal 24, .nonTerminal 4, .nonTerminal 1])]),
  (1, [(0, []), (10, [.nonTerminal 25, .nonTerminal 2, .nonTerminal 1]),
    (13, [.nonTerminal 25, .nonTerminal 2, .nonTerminal 1])]),
  (2, [(0, []), (10, []), (13, []), (32, [.nonTerminal 24, .nonTerminal 3]),
    (60, [.nonTerminal 24, .nonTerminal 3])]),
  (3, [(0, []), (10, []), (13, []), (60, [.nonTerminal 4])]),
  (4, [
    (60, [.terminal b!"<", .nonTerminal 18, .terminal b!">", .nonTerminal 24, .terminal b!"::=", .nonTerminal 24, .nonTerminal 5])]),
  (5, [(34, [.nonTerminal 7, .nonTerminal 6]), (39, [.nonTerminal 7, .nonTerminal 6]),
    (60, [.nonTerminal 7, .nonTerminal 6])]),
  (6, [(0, []), (10, []), (13, []),
    (124, [.terminal b!"|", .nonTerminal 24, .nonTerminal 7, .nonTerminal 6])]),
  (7, [(34, [.nonTerminal 9, .nonTerminal 24, .nonTerminal 8]),
    (39, [.nonTerminal 9, .nonTerminal 24, .nonTerminal 8]),
    (60, [.nonTerminal 9, .nonTerminal 24, .nonTerminal 8])]),
  (8, [(0, []), (10, []), (13, []), (34, [.nonTerminal 9, .nonTerminal 24, .nonTerminal 8]),
    (39, [.nonTerminal 9, .nonTerminal 24, .nonTerminal 8]),
    (60, [.nonTerminal 9, .nonTerminal 24, .nonTerminal 8]), (124, [])]),
  (9, [(34, [.nonTerminal 10]), (39, [.nonTerminal 10]),
    (60, [.terminal b!"<", .nonTerminal 18, .terminal b!">"])]),
  (10, [(34, [.terminal b!"\"", .nonTerminal 11, .terminal b!"\""]),
    (39, [.terminal b!"'", .nonTerminal 12, .terminal b!"'"])]),
  (11, [(32, [.nonTerminal 13, .nonTerminal 11]), (33, [.nonTerminal 13, .nonTerminal 11]),
    (34, []), (35, [.nonTerminal 13, .nonTerminal 11]),
    (36, [.nonTerminal 13, .nonTerminal 11]), (37, [.nonTerminal 13, .nonTerminal 11]),
    (38, [.nonTerminal 13, .nonTerminal 11]), (39, [.nonTerminal 13, .nonTerminal 11]),
    (40, [.nonTerminal 13, .nonTerminal 11]), (41, [.nonTerminal 13, .nonTerminal 11]),
    (42, [.nonTerminal 13, .nonTerminal 11]), (43, [.nonTerminal 13, .nonTerminal 11]),
    (44, [.nonTerminal 13, .nonTerminal 11]), (45, [.nonTerminal 13, .nonTerminal 11]),
    (46, [.nonTerminal 13, .nonTerminal 11]), (47, [.nonTerminal 13, .nonTerminal 11]),
    (48, [.nonTerminal 13, .nonTerminal 11]), (49, [.nonTerminal 13, .nonTerminal 11]),
    (50, [.nonTerminal 13, .nonTerminal 11]), (51, [.nonTerminal 13, .nonTerminal 11]),
    (52, [.nonTerminal 13, .nonTerminal 11]), (53, [.nonTerminal 13, .nonTerminal 11]),
    (54, [.nonTerminal 13, .nonTerminal 11]), (55, [.nonTerminal 13, .nonTerminal 11]),
    (56, [.nonTerminal 13, .nonTerminal 11]), (57, [.nonTerminal 13, .nonTerminal 11]),
    (58, [.nonTerminal 13, .nonTerminal 11]), (59, [.nonTerminal 13, .nonTerminal 11]),
    (60, [.nonTerminal 13, .nonTerminal 11]), (61, [.nonTerminal 13, .nonTerminal 11]),
    (62, [.nonTerminal 13, .nonTerminal 11]), (63, [.nonTerminal 13, .nonTerminal 11]),
    (64, [.nonTerminal 13, .nonTerminal 11]), (65, [.nonTerminal 13, .nonTerminal 11]),
    (66, [.nonTerminal 13, .nonTerminal 11]), (67, [.nonTerminal 13, .nonTerminal 11]),
    (68, [.nonTerminal 13, .nonTerminal 11]), (69, [.nonTerminal 13, .nonTerminal 11]),
    (70, [.nonTerminal 13, .nonTerminal 11]), (71, [.nonTerminal 13, .nonTerminal 11]),
    (72, [.nonTerminal 13, .nonTerminal 11]), (73, [.nonTerminal 13, .nonTerminal 11]),
    (74, [.nonTerminal 13, .nonTerminal 11]), (75, [.nonTerminal 13, .nonTerminal 11]),
    (76, [.nonTerminal 13, .nonTerminal 11]), (77, [.nonTerminal 13, .nonTerminal 11]),
    (78, [.nonTerminal 13, .nonTerminal 11]), (79, [.nonTerminal 13, .nonTerminal 11]),
    (80, [.nonTerminal 13, .nonTerminal 11]), (81, [.nonTerminal 13, .nonTerminal 11]),
    (82, [.nonTerminal 13, .nonTerminal 11]), (83, [.nonTerminal 13, .nonTerminal 11]),
    (84, [.nonTerminal 13, .nonTerminal 11]), (85, [.nonTerminal 13, .nonTerminal 11]),
    (86, [.nonTerminal 13, .nonTerminal 11]), (87, [.nonTerminal 13, .nonTerminal 11]),
    (88, [.nonTerminal 13, .nonTerminal 11]), (89, [.nonTerminal 13, .nonTerminal 11]),
    (90, [.nonTerminal 13, .nonTerminal 11]), (91, [.nonTerminal 13, .nonTerminal 11]),
    (92, [.nonTerminal 13, .nonTerminal 11]), (93, [.nonTerminal 13, .nonTerminal 11]),
    (94, [.nonTerminal 13, .nonTerminal 11]), (95, [.nonTerminal 13, .nonTerminal 11]),
    (96, [.nonTerminal 13, .nonTerminal 11]), (97, [.nonTerminal 13, .nonTerminal 11]),
    (98, [.nonTerminal 13, .nonTerminal 11]), (99, [.nonTerminal 13, .nonTerminal 11]),
    (100, [.nonTerminal 13, .nonTerminal 11]), (101, [.nonTerminal 13, .nonTerminal 11]),
    (102, [.nonTerminal 13, .nonTerminal 11]), (103, [.nonTerminal 13, .nonTerminal 11]),
    (104, [.nonTerminal 13, .nonTerminal 11]), (105, [.nonTerminal 13, .nonTerminal 11]),
    (106, [.nonTerminal 13, .nonTerminal 11]), (107, [.nonTerminal 13, .nonTerminal 11]),
    (108, [.nonTerminal 13, .nonTerminal 11]), (109, [.nonTerminal 13, .nonTerminal 11]),
    (110, [.nonTerminal 13, .nonTerminal 11]), (111, [.nonTerminal 13, .nonTerminal 11]),
    (112, [.nonTerminal 13, .nonTerminal 11]), (113, [.nonTerminal 13, .nonTerminal 11]),
    (114, [.nonTerminal 13, .nonTerminal 11]), (115, [.nonTerminal 13, .nonTerminal 11]),
    (116, [.nonTerminal 13, .nonTerminal 11]), (117, [.nonTerminal 13, .nonTerminal 11]),
    (118, [.nonTerminal 13, .nonTerminal 11]), (119, [.nonTerminal 13, .nonTerminal 11]),
    (120, [.nonTerminal 13, .nonTerminal 11]), (121, [.nonTerminal 13, .nonTerminal 11]),
    (122, [.nonTerminal 13, .nonTerminal 11]), (123, [.nonTerminal 13, .nonTerminal 11]),
    (124, [.nonTerminal 13, .nonTerminal 11]), (125, [.nonTerminal 13, .nonTerminal 11]),
    (126, [.nonTerminal 13, .nonTerminal 11])]),
  (12, [(32, [.nonTerminal 14, .nonTerminal 12]), (33, [.nonTerminal 14, .nonTerminal 12]),
    (34, [.nonTerminal 14, .nonTerminal 12]), (35, [.nonTerminal 14, .nonTerminal 12]),
    (36, [.nonTerminal 14, .nonTerminal 12]), (37, [.nonTerminal 14, .nonTerminal 12]),
    (38, [.nonTerminal 14, .nonTerminal 12]), (39, []),
    (40, [.nonTerminal 14, .nonTerminal 12]), (41, [.nonTerminal 14, .nonTerminal 12]),
    (42, [.nonTerminal 14, .nonTerminal 12]), (43, [.nonTerminal 14, .nonTerminal 12]),
    (44, [.nonTerminal 14, .nonTerminal 12]), (45, [.nonTerminal 14, .nonTerminal 12]),
    (46, [.nonTerminal 14, .nonTerminal 12]), (47, [.nonTerminal 14, .nonTerminal 12]),
    (48, [.nonTerminal 14, .nonTerminal 12]), (49, [.nonTerminal 14, .nonTerminal 12]),
    (50, [.nonTerminal 14, .nonTerminal 12]), (51, [.nonTerminal 14, .nonTerminal 12]),
    (52, [.nonTerminal 14, .nonTerminal 12]), (53, [.nonTerminal 14, .nonTerminal 12]),
    (54, [.nonTerminal 14, .nonTerminal 12]), (55, [.nonTerminal 14, .nonTerminal 12]),
    (56, [.nonTerminal 14, .nonTerminal 12]), (57, [.nonTerminal 14, .nonTerminal 12]),
    (58, [.nonTerminal 14, .nonTerminal 12]), (59, [.nonTerminal 14, .nonTerminal 12]),
    (60, [.nonTerminal 14, .nonTerminal 12]), (61, [.nonTerminal 14, .nonTerminal 12]),
    (62, [.nonTerminal 14, .nonTerminal 12]), (63, [.nonTerminal 14, .nonTerminal 12]),
    (64, [.nonTerminal 14, .nonTerminal 12]), (65, [.nonTerminal 14, .nonTerminal 12]),
    (66, [.nonTerminal 14, .nonTerminal 12]), (67, [.nonTerminal 14, .nonTerminal 12]),
    (68, [.nonTerminal 14, .nonTerminal 12]), (69, [.nonTerminal 14, .nonTerminal 12]),
    (70, [.nonTerminal 14, .nonTerminal 12]), (71, [.nonTerminal 14, .nonTerminal 12]),
    (72, [.nonTerminal 14, .nonTerminal 12]), (73, [.nonTerminal 14, .nonTerminal 12]),
    (74, [.nonTerminal 14, .nonTerminal 12]), (75, [.nonTerminal 14, .nonTerminal 12]),
    (76, [.nonTerminal 14, .nonTerminal 12]), (77, [.nonTerminal 14, .nonTerminal 12]),
    (78, [.nonTerminal 14, .nonTerminal 12]), (79, [.nonTerminal 14, .nonTerminal 12]),
    (80, [.nonTerminal 14, .nonTerminal 12]), (81, [.nonTerminal 14, .nonTerminal 12]),
    (82, [.nonTerminal 14, .nonTerminal 12]), (83, [.nonTerminal 14, .nonTerminal 12]),
    (84, [.nonTerminal 14, .nonTerminal 12]), (85, [.nonTerminal 14, .nonTerminal 12]),
    (86, [.nonTerminal 14, .nonTerminal 12]), (87, [.nonTerminal 14, .nonTerminal 12]),
    (88, [.nonTerminal 14, .nonTerminal 12]), (89, [.nonTerminal 14, .nonTerminal 12]),
    (90, [.nonTerminal 14, .nonTerminal 12]), (91, [.nonTerminal 14, .nonTerminal 12]),
    (92, [.nonTerminal 14, .nonTerminal 12]), (93, [.nonTerminal 14, .nonTerminal 12]),
    (94, [.nonTerminal 14, .nonTerminal 12]), (95, [.nonTerminal 14, .nonTerminal 12]),
    (96, [.nonTerminal 14, .nonTerminal 12]), (97, [.nonTerminal 14, .nonTerminal 12]),
    (98, [.nonTerminal 14, .nonTerminal 12]), (99, [.nonTerminal 14, .nonTerminal 12]),
    (100, [.nonTerminal 14, .nonTerminal 12]), (101, [.nonTerminal 14, .nonTerminal 12]),
    (102, [.nonTerminal 14, .nonTerminal 12]), (103, [.nonTerminal 14, .nonTerminal 12]),
    (104, [.nonTerminal 14, .nonTerminal 12]), (105, [.nonTerminal 14, .nonTerminal 12]),
    (106, [.nonTerminal 14, .nonTerminal 12]), (107, [.nonTerminal 14, .nonTerminal 12]),
    (108, [.nonTerminal 14, .nonTerminal 12]), (109, [.nonTerminal 14, .nonTerminal 12]),
    (110, [.nonTerminal 14, .nonTerminal 12]), (111, [.nonTerminal 14, .nonTerminal 12]),
    (112, [.nonTerminal 14, .nonTerminal 12]), (113, [.nonTerminal 14, .nonTerminal 12]),
    (114, [.nonTerminal 14, .nonTerminal 12]), (115, [.nonTerminal 14, .nonTerminal 12]),
    (116, [.nonTerminal 14, .nonTerminal 12]), (117, [.nonTerminal 14, .nonTerminal 12]),
    (118, [.nonTerminal 14, .nonTerminal 12]), (119, [.nonTerminal 14, .nonTerminal 12]),
    (120, [.nonTerminal 14, .nonTerminal 12]), (121, [.nonTerminal 14, .nonTerminal 12]),
    (122, [.nonTerminal 14, .nonTerminal 12]), (123, [.nonTerminal 14, .nonTerminal 12]),
    (124, [.nonTerminal 14, .nonTerminal 12]), (125, [.nonTerminal 14, .nonTerminal 12]),
    (126, [.nonTerminal 14, .nonTerminal 12])]),
  (13, [(32, [.nonTerminal 15]), (33, [.nonTerminal 15]), (35, [.nonTerminal 15]),
    (36, [.nonTerminal 15]), (37, [.nonTerminal 15]), (38, [.nonTerminal 15]),
    (39, [.terminal b!"'"]), (40, [.nonTerminal 15]), (41, [.nonTerminal 15]),
    (42, [.nonTerminal 15]), (43, [.nonTerminal 15]), (44, [.nonTerminal 15]),
    (45, [.nonTerminal 15]), (46, [.nonTerminal 15]), (47, [.nonTerminal 15]),
    (48, [.nonTerminal 15]), (49, [.nonTerminal 15]), (50, [.nonTerminal 15]),
    (51, [.nonTerminal 15]), (52, [.nonTerminal 15]), (53, [.nonTerminal 15]),
    (54, [.nonTerminal 15]), (55, [.nonTerminal 15]), (56, [.nonTerminal 15]),
    (57, [.nonTerminal 15]), (58, [.nonTerminal 15]), (59, [.nonTerminal 15]),
    (60, [.nonTerminal 15]), (61, [.nonTerminal 15]), (62, [.nonTerminal 15]),
    (63, [.nonTerminal 15]), (64, [.nonTerminal 15]), (65, [.nonTerminal 15]),
    (66, [.nonTerminal 15]), (67, [.nonTerminal 15]), (68, [.nonTerminal 15]),
    (69, [.nonTerminal 15]), (70, [.nonTerminal 15]), (71, [.nonTerminal 15]),
    (72, [.nonTerminal 15]), (73, [.nonTerminal 15]), (74, [.nonTerminal 15]),
    (75, [.nonTerminal 15]), (76, [.nonTerminal 15]), (77, [.nonTerminal 15]),
    (78, [.nonTerminal 15]), (79, [.nonTerminal 15]), (80, [.nonTerminal 15]),
    (81, [.nonTerminal 15]), (82, [.nonTerminal 15]), (83, [.nonTerminal 15]),
    (84, [.nonTerminal 15]), (85, [.nonTerminal 15]), (86, [.nonTerminal 15]),
    (87, [.nonTerminal 15]), (88, [.nonTerminal 15]), (89, [.nonTerminal 15]),
    (90, [.nonTerminal 15]), (91, [.nonTerminal 15]), (92, [.nonTerminal 15]),
    (93, [.nonTerminal 15]), (94, [.nonTerminal 15]), (95, [.nonTerminal 15]),
    (96, [.nonTerminal 15]), (97, [.nonTerminal 15]), (98, [.nonTerminal 15]),
    (99, [.nonTerminal 15]), (100, [.nonTerminal 15]), (101, [.nonTerminal 15]),
    (102, [.nonTerminal 15]), (103, [.nonTerminal 15]), (104, [.nonTerminal 15]),
    (105, [.nonTerminal 15]), (106, [.nonTerminal 15]), (107, [.nonTerminal 15]),
    (108, [.nonTerminal 15]), (109, [.nonTerminal 15]), (110, [.nonTerminal 15]),
    (111, [.nonTerminal 15]), (112, [.nonTerminal 15]), (113, [.nonTerminal 15]),
    (114, [.nonTerminal 15]), (115, [.nonTerminal 15]), (116, [.nonTerminal 15]),
    (117, [.nonTerminal 15]), (118, [.nonTerminal 15]), (119, [.nonTerminal 15]),
    (120, [.nonTerminal 15]), (121, [.nonTerminal 15]), (122, [.nonTerminal 15]),
    (123, [.nonTerminal 15]), (124, [.nonTerminal 15]), (125, [.nonTerminal 15]),
    (126, [.nonTerminal 15])]),
  (14, [(32, [.nonTerminal 15]), (33, [.nonTerminal 15]), (34, [.terminal b!"\""]),
    (35, [.nonTerminal 15]), (36, [.nonTerminal 15]), (37, [.nonTerminal 15]),
    (38, [.nonTerminal 15]), (40, [.nonTerminal 15]), (41, [.nonTerminal 15]),
    (42, [.nonTerminal 15]), (43, [.nonTerminal 15]), (44, [.nonTerminal 15]),
    (45, [.nonTerminal 15]), (46, [.nonTerminal 15]), (47, [.nonTerminal 15]),
    (48, [.nonTerminal 15]), (49, [.nonTerminal 15]), (50, [.nonTerminal 15]),
    (51, [.nonTerminal 15]), (52, [.nonTerminal 15]), (53, [.nonTerminal 15]),
    (54, [.nonTerminal 15]), (55, [.nonTerminal 15]), (56, [.nonTerminal 15]),
    (57, [.nonTerminal 15]), (58, [.nonTerminal 15]), (59, [.nonTerminal 15]),
    (60, [.nonTerminal 15]), (61, [.nonTerminal 15]), (62, [.nonTerminal 15]),
    (63, [.nonTerminal 15]), (64, [.nonTerminal 15]), (65, [.nonTerminal 15]),
    (66, [.nonTerminal 15]), (67, [.nonTerminal 15]), (68, [.nonTerminal 15]),
    (69, [.nonTerminal 15]), (70, [.nonTerminal 15]), (71, [.nonTerminal 15]),
    (72, [.nonTerminal 15]), (73, [.nonTerminal 15]), (74, [.nonTerminal 15]),
    (75, [.nonTerminal 15]), (76, [.nonTerminal 15]), (77, [.nonTerminal 15]),
    (78, [.nonTerminal 15]), (79, [.nonTerminal 15]), (80, [.nonTerminal 15]),
    (81, [.nonTerminal 15]), (82, [.nonTerminal 15]), (83, [.nonTerminal 15]),
    (84, [.nonTerminal 15]), (85, [.nonTerminal 15]), (86, [.nonTerminal 15]),
    (87, [.nonTerminal 15]), (88, [.nonTerminal 15]), (89, [.nonTerminal 15]),
    (90, [.nonTerminal 15]), (91, [.nonTerminal 15]), (92, [.nonTerminal 15]),
    (93, [.nonTerminal 15]), (94, [.nonTerminal 15]), (95, [.nonTerminal 15]),
    (96, [.nonTerminal 15]), (97, [.nonTerminal 15]), (98, [.nonTerminal 15]),
    (99, [.nonTerminal 15]), (100, [.nonTerminal 15]), (101, [.nonTerminal 15]),
    (102, [.nonTerminal 15]), (103, [.nonTerminal 15]), (104, [.nonTerminal 15]),
    (105, [.nonTerminal 15]), (106, [.nonTerminal 15]), (107, [.nonTerminal 15]),
    (108, [.nonTerminal 15]), (109, [.nonTerminal 15]), (110, [.nonTerminal 15]),
    (111, [.nonTerminal 15]), (112, [.nonTerminal 15]), (113, [.nonTerminal 15]),
    (114, [.nonTerminal 15]), (115, [.nonTerminal 15]), (116, [.nonTerminal 15]),
    (117, [.nonTerminal 15]), (118, [.nonTerminal 15]), (119, [.nonTerminal 15]),
    (120, [.nonTerminal 15]), (121, [.nonTerminal 15]), (122, [.nonTerminal 15]),
    (123, [.nonTerminal 15]), (124, [.nonTerminal 15]), (125, [.nonTerminal 15]),
    (126, [.nonTerminal 15])]),
  (15, [(32, [.nonTerminal 23]), (33, [.nonTerminal 23]), (35, [.nonTerminal 23]),
    (36, [.nonTerminal 23]), (37, [.nonTerminal 23]), (38, [.nonTerminal 23]),
    (40, [.nonTerminal 23]), (41, [.nonTerminal 23]), (42, [.nonTerminal 23]),
    (43, [.nonTerminal 23]), (44, [.nonTerminal 23]), (45, [.nonTerminal 23]),
    (46, [.nonTerminal 23]), (47, [.nonTerminal 23]), (48, [.nonTerminal 22]),
    (49, [.nonTerminal 22]), (50, [.nonTerminal 22]), (51, [.nonTerminal 22]),
    (52, [.nonTerminal 22]), (53, [.nonTerminal 22]), (54, [.nonTerminal 22]),
    (55, [.nonTerminal 22]), (56, [.nonTerminal 22]), (57, [.nonTerminal 22]),
    (58, [.nonTerminal 23]), (59, [.nonTerminal 23]), (60, [.nonTerminal 23]),
    (61, [.nonTerminal 23]), (62, [.nonTerminal 23]), (63, [.nonTerminal 23]),
    (64, [.nonTerminal 23]), (65, [.nonTerminal 21]), (66, [.nonTerminal 21]),
    (67, [.nonTerminal 21]), (68, [.nonTerminal 21]), (69, [.nonTerminal 21]),
    (70, [.nonTerminal 21]), (71, [.nonTerminal 21]), (72, [.nonTerminal 21]),
    (73, [.nonTerminal 21]), (74, [.nonTerminal 21]), (75, [.nonTerminal 21]),
    (76, [.nonTerminal 21]), (77, [.nonTerminal 21]), (78, [.nonTerminal 21]),
    (79, [.nonTerminal 21]), (80, [.nonTerminal 21]), (81, [.nonTerminal 21]),
    (82, [.nonTerminal 21]), (83, [.nonTerminal 21]), (84, [.nonTerminal 21]),
    (85, [.nonTerminal 21]), (86, [.nonTerminal 21]), (87, [.nonTerminal 21]),
    (88, [.nonTerminal 21]), (89, [.nonTerminal 21]), (90, [.nonTerminal 21]),
    (91, [.nonTerminal 23]), (92, [.nonTerminal 16]), (93, [.nonTerminal 23]),
    (94, [.nonTerminal 23]), (95, [.nonTerminal 23]), (96, [.nonTerminal 23]),
    (97, [.nonTerminal 21]), (98, [.nonTerminal 21]), (99, [.nonTerminal 21]),
    (100, [.nonTerminal 21]), (101, [.nonTerminal 21]), (102, [.nonTerminal 21]),
    (103, [.nonTerminal 21]), (104, [.nonTerminal 21]), (105, [.nonTerminal 21]),
    (106, [.nonTerminal 21]), (107, [.nonTerminal 21]), (108, [.nonTerminal 21]),
    (109, [.nonTerminal 21]), (110, [.nonTerminal 21]), (111, [.nonTerminal 21]),
    (112, [.nonTerminal 21]), (113, [.nonTerminal 21]), (114, [.nonTerminal 21]),
    (115, [.nonTerminal 21]), (116, [.nonTerminal 21]), (117, [.nonTerminal 21]),
    (118, [.nonTerminal 21]), (119, [.nonTerminal 21]), (120, [.nonTerminal 21]),
    (121, [.nonTerminal 21]), (122, [.nonTerminal 21]), (123, [.nonTerminal 23]),
    (124, [.nonTerminal 23]), (125, [.nonTerminal 23]), (126, [.nonTerminal 23])]),
  (16, [(92, [.terminal b!"\\", .nonTerminal 17])]),
  (17, [(34, [.terminal b!"\""]), (92, [.terminal b!"\\"]), (110, [.terminal b!"n"]),
    (114, [.terminal b!"r"]), (116, [.terminal b!"t"])]),
  (18, [(65, [.nonTerminal 21, .nonTerminal 19]), (66, [.nonTerminal 21, .nonTerminal 19]),
    (67, [.nonTerminal 21, .nonTerminal 19]), (68, [.nonTerminal 21, .nonTerminal 19]),
    (69, [.nonTerminal 21, .nonTerminal 19]), (70, [.nonTerminal 21, .nonTerminal 19]),
    (71, [.nonTerminal 21, .nonTerminal 19]), (72, [.nonTerminal 21, .nonTerminal 19]),
    (73, [.nonTerminal 21, .nonTerminal 19]), (74, [.nonTerminal 21, .nonTerminal 19]),
    (75, [.nonTerminal 21, .nonTerminal 19]), (76, [.nonTerminal 21, .nonTerminal 19]),
    (77, [.nonTerminal 21, .nonTerminal 19]), (78, [.nonTerminal 21, .nonTerminal 19]),
    (79, [.nonTerminal 21, .nonTerminal 19]), (80, [.nonTerminal 21, .nonTerminal 19]),
    (81, [.nonTerminal 21, .nonTerminal 19]), (82, [.nonTerminal 21, .nonTerminal 19]),
    (83, [.nonTerminal 21, .nonTerminal 19]), (84, [.nonTerminal 21, .nonTerminal 19]),
    (85, [.nonTerminal 21, .nonTerminal 19]), (86, [.nonTerminal 21, .nonTerminal 19]),
    (87, [.nonTerminal 21, .nonTerminal 19]), (88, [.nonTerminal 21, .nonTerminal 19]),
    (89, [.nonTerminal 21, .nonTerminal 19]), (90, [.nonTerminal 21, .nonTerminal 19]),
    (97, [.nonTerminal 21, .nonTerminal 19]), (98, [.nonTerminal 21, .nonTerminal 19]),
    (99, [.nonTerminal 21, .nonTerminal 19]), (100, [.nonTerminal 21, .nonTerminal 19]),
    (101, [.nonTerminal 21, .nonTerminal 19]), (102, [.nonTerminal 21, .nonTerminal 19]),
    (103, [.nonTerminal 21, .nonTerminal 19]), (104, [.nonTerminal 21, .nonTerminal 19]),
    (105, [.nonTerminal 21, .nonTerminal 19]), (106, [.nonTerminal 21, .nonTerminal 19]),
    (107, [.nonTerminal 21, .nonTerminal 19]), (108, [.nonTerminal 21, .nonTerminal 19]),
    (109, [.nonTerminal 21, .nonTerminal 19]), (110, [.nonTerminal 21, .nonTerminal 19]),
    (111, [.nonTerminal 21, .nonTerminal 19]), (112, [.nonTerminal 21, .nonTerminal 19]),
    (113, [.nonTerminal 21, .nonTerminal 19]), (114, [.nonTerminal 21, .nonTerminal 19]),
    (115, [.nonTerminal 21, .nonTerminal 19]), (116, [.nonTerminal 21, .nonTerminal 19]),
    (117, [.nonTerminal 21, .nonTerminal 19]), (118, [.nonTerminal 21, .nonTerminal 19]),
    (119, [.nonTerminal 21, .nonTerminal 19]), (120, [.nonTerminal 21, .nonTerminal 19]),
    (121, [.nonTerminal 21, .nonTerminal 19]), (122, [.nonTerminal 21, .nonTerminal 19])]),
  (19, [(45, [.nonTerminal 20, .nonTerminal 19]), (48, [.nonTerminal 20, .nonTerminal 19]),
    (49, [.nonTerminal 20, .nonTerminal 19]), (50, [.nonTerminal 20, .nonTerminal 19]),
    (51, [.nonTerminal 20, .nonTerminal 19]), (52, [.nonTerminal 20, .nonTerminal 19]),
    (53, [.nonTerminal 20, .nonTerminal 19]), (54, [.nonTerminal 20, .nonTerminal 19]),
    (55, [.nonTerminal 20, .nonTerminal 19]), (56, [.nonTerminal 20, .nonTerminal 19]),
    (57, [.nonTerminal 20, .nonTerminal 19]), (62, []),
    (65, [.nonTerminal 20, .nonTerminal 19]), (66, [.nonTerminal 20, .nonTerminal 19]),
    (67, [.nonTerminal 20, .nonTerminal 19]), (68, [.nonTerminal 20, .nonTerminal 19]),
    (69, [.nonTerminal 20, .nonTerminal 19]), (70, [.nonTerminal 20, .nonTerminal 19]),
    (71, [.nonTerminal 20, .nonTerminal 19]), (72, [.nonTerminal 20, .nonTerminal 19]),
    (73, [.nonTerminal 20, .nonTerminal 19]), (74, [.nonTerminal 20, .nonTerminal 19]),
    (75, [.nonTerminal 20, .nonTerminal 19]), (76, [.nonTerminal 20, .nonTerminal 19]),
    (77, [.nonTerminal 20, .nonTerminal 19]), (78, [.nonTerminal 20, .nonTerminal 19]),
    (79, [.nonTerminal 20, .nonTerminal 19]), (80, [.nonTerminal 20, .nonTerminal 19]),
    (81, [.nonTerminal 20, .nonTerminal 19]), (82, [.nonTerminal 20, .nonTerminal 19]),
    (83, [.nonTerminal 20, .nonTerminal 19]), (84, [.nonTerminal 20, .nonTerminal 19]),
    (85, [.nonTerminal 20, .nonTerminal 19]), (86, [.nonTerminal 20, .nonTerminal 19]),
    (87, [.nonTerminal 20, .nonTerminal 19]), (88, [.nonTerminal 20, .nonTerminal 19]),
    (89, [.nonTerminal 20, .nonTerminal 19]), (90, [.nonTerminal 20, .nonTerminal 19]),
    (97, [.nonTerminal 20, .nonTerminal 19]), (98, [.nonTerminal 20, .nonTerminal 19]),
    (99, [.nonTerminal 20, .nonTerminal 19]), (100, [.nonTerminal 20, .nonTerminal 19]),
    (101, [.nonTerminal 20, .nonTerminal 19]), (102, [.nonTerminal 20, .nonTerminal 19]),
    (103, [.nonTerminal 20, .nonTerminal 19]), (104, [.nonTerminal 20, .nonTerminal 19]),
    (105, [.nonTerminal 20, .nonTerminal 19]), (106, [.nonTerminal 20, .nonTerminal 19]),
    (107, [.nonTerminal 20, .nonTerminal 19]), (108, [.nonTerminal 20, .nonTerminal 19]),
    (109, [.nonTerminal 20, .nonTerminal 19]), (110, [.nonTerminal 20, .nonTerminal 19]),
    (111, [.nonTerminal 20, .nonTerminal 19]), (112, [.nonTerminal 20, .nonTerminal 19]),
    (113, [.nonTerminal 20, .nonTerminal 19]), (114, [.nonTerminal 20, .nonTerminal 19]),
    (115, [.nonTerminal 20, .nonTerminal 19]), (116, [.nonTerminal 20, .nonTerminal 19]),
    (117, [.nonTerminal 20, .nonTerminal 19]), (118, [.nonTerminal 20, .nonTerminal 19]),
    (119, [.nonTerminal 20, .nonTerminal 19]), (120, [.nonTerminal 20, .nonTerminal 19]),
    (121, [.nonTerminal 20, .nonTerminal 19]), (122, [.nonTerminal 20, .nonTerminal 19])]),
  (20, [(45, [.terminal b!"-"]), (48, [.nonTerminal 22]), (49, [.nonTerminal 22]),
    (50, [.nonTerminal 22]), (51, [.nonTerminal 22]), (52, [.nonTerminal 22]),
    (53, [.nonTerminal 22]), (54, [.nonTerminal 22]), (55, [.nonTerminal 22]),
    (56, [.nonTerminal 22]), (57, [.nonTerminal 22]), (65, [.nonTerminal 21]),
    (66, [.nonTerminal 21]), (67, [.nonTerminal 21]), (68, [.nonTerminal 21]),
    (69, [.nonTerminal 21]), (70, [.nonTerminal 21]), (71, [.nonTerminal 21]),
    (72, [.nonTerminal 21]), (73, [.nonTerminal 21]), (74, [.nonTerminal 21]),
    (75, [.nonTerminal 21]), (76, [.nonTerminal 21]), (77, [.nonTerminal 21]),
    (78, [.nonTerminal 21]), (79, [.nonTerminal 21]), (80, [.nonTerminal 21]),
    (81, [.nonTerminal 21]), (82, [.nonTerminal 21]), (83, [.nonTerminal 21]),
    (84, [.nonTerminal 21]), (85, [.nonTerminal 21]), (86, [.nonTerminal 21]),
    (87, [.nonTerminal 21]), (88, [.nonTerminal 21]), (89, [.nonTerminal 21]),
    (90, [.nonTerminal 21]), (97, [.nonTerminal 21]), (98, [.nonTerminal 21]),
    (99, [.nonTerminal 21]), (100, [.nonTerminal 21]), (101, [.nonTerminal 21]),
    (102, [.nonTerminal 21]), (103, [.nonTerminal 21]), (104, [.nonTerminal 21]),
    (105, [.nonTerminal 21]), (106, [.nonTerminal 21]), (107, [.nonTerminal 21]),
    (108, [.nonTerminal 21]), (109, [.nonTerminal 21]), (110, [.nonTerminal 21]),
    (111, [.nonTerminal 21]), (112, [.nonTerminal 21]), (113, [.nonTerminal 21]),
    (114, [.nonTerminal 21]), (115, [.nonTerminal 21]), (116, [.nonTerminal 21]),
    (117, [.nonTerminal 21]), (118, [.nonTerminal 21]), (119, [.nonTerminal 21]),
    (120, [.nonTerminal 21]), (121, [.nonTerminal 21]), (122, [.nonTerminal 21])]),
  (21, [(65, [.terminal b!"A"]), (66, [.terminal b!"B"]), (67, [.terminal b!"C"]),
    (68, [.terminal b!"D"]), (69, [.terminal b!"E"]), (70, [.terminal b!"F"]),
    (71, [.terminal b!"G"]), (72, [.terminal b!"H"]), (73, [.terminal b!"I"]),
    (74, [.terminal b!"J"]), (75, [.terminal b!"K"]), (76, [.terminal b!"L"]),
    (77, [.terminal b!"M"]), (78, [.terminal b!"N"]), (79, [.terminal b!"O"]),
    (80, [.terminal b!"P"]), (81, [.terminal b!"Q"]), (82, [.terminal b!"R"]),
    (83, [.terminal b!"S"]), (84, [.terminal b!"T"]), (85, [.terminal b!"U"]),
    (86, [.terminal b!"V"]), (87, [.terminal b!"W"]), (88, [.terminal b!"X"]),
    (89, [.terminal b!"Y"]), (90, [.terminal b!"Z"]), (97, [.terminal b!"a"]),
    (98, [.terminal b!"b"]), (99, [.terminal b!"c"]), (100, [.terminal b!"d"]),
    (101, [.terminal b!"e"]), (102, [.terminal b!"f"]), (103, [.terminal b!"g"]),
    (104, [.terminal b!"h"]), (105, [.terminal b!"i"]), (106, [.terminal b!"j"]),
    (107, [.terminal b!"k"]), (108, [.terminal b!"l"]), (109, [.terminal b!"m"]),
    (110, [.terminal b!"n"]), (111, [.terminal b!"o"]), (112, [.terminal b!"p"]),
    (113, [.terminal b!"q"]), (114, [.terminal b!"r"]), (115, [.terminal b!"s"]),
    (116, [.terminal b!"t"]), (117, [.terminal b!"u"]), (118, [.terminal b!"v"]),
    (119, [.terminal b!"w"]), (120, [.terminal b!"x"]), (121, [.terminal b!"y"]),
    (122, [.terminal b!"z"])]),
  (22, [(48, [.terminal b!"0"]), (49, [.terminal b!"1"]), (50, [.terminal b!"2"]),
    (51, [.terminal b!"3"]), (52, [.terminal b!"4"]), (53, [.terminal b!"5"]),
    (54, [.terminal b!"6"]), (55, [.terminal b!"7"]), (56, [.terminal b!"8"]),
    (57, [.terminal b!"9"])]),
  (23, [(32, [.terminal b!" "]), (33, [.terminal b!"!"]), (35, [.terminal b!"#"]),
    (36, [.terminal b!"$"]), (37, [.terminal b!"%"]), (38, [.terminal b!"&"]),
    (40, [.terminal b!"("]), (41, [.terminal b!")"]), (42, [.terminal b!"*"]),
    (43, [.terminal b!"+"]), (44, [.terminal b!","]), (45, [.terminal b!"-"]),
    (46, [.terminal b!"."]), (47, [.terminal b!"/"]), (58, [.terminal b!":"]),
    (59, [.terminal b!";"]), (60, [.terminal b!"<"]), (61, [.terminal b!"="]),
    (62, [.terminal b!">"]), (63, [.terminal b!"?"]), (64, [.terminal b!"@"]),
    (91, [.terminal b!"["]), (93, [.terminal b!"]"]), (94, [.terminal b!"^"]),
    (95, [.terminal b!"_"]), (96, [.terminal b!"`"]), (123, [.terminal b!"{"]),
    (124, [.terminal b!"|"]), (125, [.terminal b!"}"]), (126, [.terminal b!"~"])]),
  (24, [(0, []), (10, []), (13, []), (32, [.terminal b!" ", .nonTerminal 24]), (34, []),
    (39, []), (58, []), (60, []), (124, [])]),
  (25, [(10, [.terminal b!"\n"]), (13, [.terminal b!"\r\n"])])]

end LL1.Golden
